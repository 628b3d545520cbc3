import Verif.Tensor.Model
import Verif.Transpose.Model

/-!
# Model of `include/TAT/edge_operator.hpp`

`Tensor::edge_operator`: rename and cut, split, reverse, transpose, reverse before merge, merge, all
in one pass over the data.  The function is cut into the stages marked by its comments; each stage
below cites its lines.

Simplifications: `Rank` and `Size` are unbounded; bosonic edges carry a meaningless arrow field that
is copied along; the arrays filled from the back by the two "leadings" loops are built by recursion
from the back; `fake_map` (used only with `TAT_USE_SIMPLE_NOSYMMETRY`) is not modelled.
-/

namespace TAT

variable {ν σ α : Type}

/-- What the surroundings of a call provide: the platform (`Platform`), the content of uninitialised
data vectors, and the values of the uninitialised variable `Arrow arrow` (edge_operator.hpp 405),
one for each position. -/
structure Env (σ α : Type) where
  pf : Platform
  junk : List σ → ℕ → α
  garbage : ℕ → Bool

/-- The arguments of `edge_operator` (edge_operator.hpp 55-63).  Maps are `OMap`s, sets are lists. -/
structure EdgeArgs (ν σ : Type) where
  rename : List (ν × ν) := []
  split : List (ν × List (ν × List (σ × ℕ))) := []
  reversed : List ν := []
  merge : List (ν × List ν) := []
  newNames : List ν
  applyParity : Bool := false
  excludeSplit : List ν := []
  excludeReverse : List ν := []
  excludeReverseMerge : List ν := []
  excludeMerge : List ν := []
  cut : List (ν × List (σ × ℕ)) := []
deriving DecidableEq, Repr

/-- edge_operator.hpp 29-43 `is_same_vector`; the loop starts at index 1. -/
def isSameVector [DecidableEq ν] (a b : List ν) : Bool :=
  if a.length ≠ b.length then false
  else (List.range' 1 (a.length - 1)).all fun i => decide (a[i]? = b[i]?)

/-! ## rename and cut -/

/-- edge_operator.hpp 116-123: the new name of one edge. -/
def renameOne [LinearOrder ν] (m : List (ν × ν)) (n : ν) : ν :=
  match OMap.find? m n with
  | some n' => n'
  | none => n

/-- edge_operator.hpp 111-126 -/
def nameBeforeSplit [LinearOrder ν] (renameMap : List (ν × ν)) (names : List ν) : List ν :=
  if renameMap.isEmpty then names else names.map (renameOne renameMap)

/-- edge_operator.hpp 150-161: the loop body for one symmetry of a cut edge. -/
def cutStep [TatSym σ] (cut : List (σ × ℕ)) (m : List (σ × ℕ)) (e : σ × ℕ) : List (σ × ℕ) :=
  match OMap.find? cut e.1 with
  | some newDim =>
    if newDim ≠ 0 then OMap.set m e.1 (if newDim < e.2 then newDim else e.2) else m
  | none => OMap.set m e.1 e.2

/-- edge_operator.hpp 142-166: one edge. -/
def cutEdge [LinearOrder ν] [TatSym σ] (cut : List (ν × List (σ × ℕ))) (name : ν) (e : Edge σ) :
    Edge σ :=
  match OMap.find? cut name with
  | some c => ⟨e.arrow, e.map.foldl (cutStep c) []⟩
  | none => e

/-- edge_operator.hpp 140-168; the names are those before renaming. -/
def edgeBeforeSplit [LinearOrder ν] [TatSym σ] (cut : List (ν × List (σ × ℕ))) (names : List ν)
    (edges : List (Edge σ)) : List (Edge σ) :=
  if cut.isEmpty then edges else List.zipWith (cutEdge cut) names edges

/-! ## the loops over the combinations of a split or merge group -/

/-- Local variables of the two `loop_edge` callbacks (edge_operator.hpp 201-203, 433-435):
accumulated symmetries and dimensions, current symmetries, the offset table, and the dimension per
target symmetry (`offset_bank` resp. `merged_edge.map`). -/
structure GroupState (σ : Type) where
  accS : List σ
  accD : List ℕ
  cur : List σ
  offset : List (List σ × (σ × ℕ))
  bank : List (σ × ℕ)

/-- edge_operator.hpp 212-219, 447-453: the `for` loop refreshing the caches. -/
def refreshGroup [TatSym σ] (maps : List (List (σ × ℕ))) (it : List ℕ) (minimumChanged : ℕ)
    (s : GroupState σ) : GroupState σ :=
  (List.range' minimumChanged (maps.length - minimumChanged)).foldl
    (fun (c : GroupState σ) i =>
      { c with
        accS := c.accS.set i ((deref maps it i).1 + (if i = 0 then 0 else c.accS.getD (i - 1) 0))
        accD := c.accD.set i ((deref maps it i).2 * (if i = 0 then 1 else c.accD.getD (i - 1) 0))
        cur := c.cur.set i (deref maps it i).1 }) s

/-- edge_operator.hpp 220-228: record the offset if the target symmetry exists. -/
def splitRecord [TatSym σ] (s : GroupState σ) : GroupState σ :=
  match OMap.find? s.bank (s.accS.getLastD 0) with
  | some o =>
    { s with
      offset := OMap.set s.offset s.cur (s.accS.getLastD 0, o)
      bank := OMap.set s.bank (s.accS.getLastD 0) (o + s.accD.getLastD 0) }
  | none => s

/-- edge_operator.hpp 211-230: the callback of the split loop. -/
def splitOperate [TatSym σ] (maps : List (List (σ × ℕ))) (it : List ℕ) (minimumChanged : ℕ)
    (s : GroupState σ) : ℕ × GroupState σ :=
  (maps.length, splitRecord (refreshGroup maps it minimumChanged s))

/-- edge_operator.hpp 194-231: the offset table of one split edge. `edgeMap` is the map of the edge
before the split. -/
def splitOffset [TatSym σ] (edgeMap : List (σ × ℕ)) (maps : List (List (σ × ℕ))) :
    List (List σ × (σ × ℕ)) :=
  (loopEdge maps
    (fun s => { s with offset := OMap.set s.offset [] (0, 0) })
    (fun s => s)
    (splitOperate maps)
    (⟨List.replicate maps.length 0, List.replicate maps.length 0, List.replicate maps.length 0, [],
      edgeMap.foldl (fun m p => OMap.set m p.1 0) []⟩ : GroupState σ)).offset

/-- edge_operator.hpp 454-456: record the offset and enlarge the merged edge; `map[]` creates a
missing entry with 0. -/
def mergeRecord [TatSym σ] (s : GroupState σ) : GroupState σ :=
  let target := s.accS.getLastD 0
  let o := (OMap.find? s.bank target).getD 0
  { s with
    offset := OMap.set s.offset s.cur (target, o)
    bank := OMap.set s.bank target (o + s.accD.getLastD 0) }

/-- edge_operator.hpp 446-458: the callback of the merge loop. -/
def mergeOperate [TatSym σ] (maps : List (List (σ × ℕ))) (it : List ℕ) (minimumChanged : ℕ)
    (s : GroupState σ) : ℕ × GroupState σ :=
  (maps.length, mergeRecord (refreshGroup maps it minimumChanged s))

/-- edge_operator.hpp 438-459: map and offset table of one merged edge. -/
def mergeGroup [TatSym σ] (maps : List (List (σ × ℕ))) : List (σ × ℕ) × List (List σ × (σ × ℕ)) :=
  let s := loopEdge maps
    (fun s => { s with bank := OMap.set s.bank 0 1, offset := OMap.set s.offset [] (0, 0) })
    (fun s => s)
    (mergeOperate maps)
    (⟨List.replicate maps.length 0, List.replicate maps.length 0, List.replicate maps.length 0, [],
      []⟩ : GroupState σ)
  (s.bank, s.offset)

/-! ## split -/

/-- The variables created at edge_operator.hpp 173-272. -/
structure SplitStage (ν σ : Type) where
  names : List ν
  edges : List (Edge σ)
  flag : List ℕ
  offset : List (List (List σ × (σ × ℕ)))
deriving DecidableEq, Repr

/-- edge_operator.hpp 183-246: the loop over the edges before the split, `k` is both
`position_before_split` and `total_split_index`. -/
def splitLoop [LinearOrder ν] [TatSym σ] (splitMap : List (ν × List (ν × List (σ × ℕ)))) :
    ℕ → List ν → List (Edge σ) → SplitStage ν σ
  | k, n :: ns, e :: es =>
    let r := splitLoop splitMap (k + 1) ns es
    match OMap.find? splitMap n with
    | some parts =>
      ⟨parts.map Prod.fst ++ r.names, parts.map (fun p => ⟨e.arrow, p.2⟩) ++ r.edges,
        List.replicate parts.length k ++ r.flag,
        splitOffset e.map (parts.map Prod.snd) :: r.offset⟩
    | none => ⟨n :: r.names, e :: r.edges, k :: r.flag, [] :: r.offset⟩
  | _, _, _ => ⟨[], [], [], []⟩

/-- edge_operator.hpp 173-272 -/
def splitStage [LinearOrder ν] [TatSym σ] (splitMap : List (ν × List (ν × List (σ × ℕ))))
    (names : List ν) (edges : List (Edge σ)) : SplitStage ν σ :=
  if splitMap.isEmpty then ⟨names, edges, List.range names.length, []⟩
  else splitLoop splitMap 0 names edges

/-! ## reverse -/

/-- edge_operator.hpp 283-290: one edge. -/
def reverseOne [DecidableEq ν] (reversed : List ν) (n : ν) (e : Edge σ) : Edge σ :=
  if n ∈ reversed then { e with arrow := e.arrow ^^ true } else e

/-- edge_operator.hpp 277-297: edges before transpose. -/
def reverseEdges [DecidableEq ν] [TatSym σ] (reversed : List ν) (names : List ν)
    (edges : List (Edge σ)) : List (Edge σ) :=
  if TatSym.isFermi σ && !reversed.isEmpty then List.zipWith (reverseOne reversed) names edges
  else edges

/-- edge_operator.hpp 277-296: `reversed_before_transpose_flag`; only read for fermionic types. -/
def reverseFlags [DecidableEq ν] (reversed : List ν) (names : List ν) : List Bool :=
  names.map fun n => decide (n ∈ reversed)

/-! ## names before merge and the plan -/

/-- edge_operator.hpp 315-328: the loop over the names after merge. -/
def mergeNamesLoop [LinearOrder ν] (mergeMap : List (ν × List ν)) : ℕ → List ν → List ν × List ℕ
  | _, [] => ([], [])
  | k, n :: ns =>
    let r := mergeNamesLoop mergeMap (k + 1) ns
    match OMap.find? mergeMap n with
    | some group => (group ++ r.1, List.replicate group.length k ++ r.2)
    | none => (n :: r.1, k :: r.2)

/-- edge_operator.hpp 309-336: `name_before_merge` and `merge_flag`. -/
def mergeNames [LinearOrder ν] (mergeMap : List (ν × List ν)) (newNames : List ν) :
    List ν × List ℕ :=
  if mergeMap.isEmpty then (newNames, List.range newNames.length)
  else mergeNamesLoop mergeMap 0 newNames

/-- edge_operator.hpp 355-359: look up one name. -/
def planOne [LinearOrder ν] (index : List (ν × ℕ)) (n : ν) : Outcome ℕ :=
  match OMap.find? index n with
  | some i => .ok i
  | none => .error "Tensor to transpose with incompatible name list"

/-- edge_operator.hpp 354-360: `plan_destination_to_source`. -/
def planLoop [LinearOrder ν] (index : List (ν × ℕ)) : List ν → Outcome (List ℕ)
  | [] => .ok []
  | n :: ns => (planOne index n).bind fun i => (planLoop index ns).bind fun r => .ok (i :: r)

/-- `target[plan[i]] = source[i]` for all `i` (edge_operator.hpp 360, 687-691). -/
def scatter {β : Type} (zero : β) (plan : List ℕ) (source : List β) : List β :=
  (List.range plan.length).foldl
    (fun l i => l.set (plan.getD i 0) (source.getD i zero)) (List.replicate plan.length zero)

/-- edge_operator.hpp 361: `edge_after_transpose`. -/
def gather {β : Type} (default : β) (plan : List ℕ) (source : List β) : List β :=
  plan.map fun i => source.getD i default

/-! ## merge -/

/-- edge_operator.hpp 407-428: fix the arrow of a merge group; returns the edges with their possibly
flipped arrows, the flags, and the arrow if it was set. -/
def mergeArrow [TatSym σ] : Option Bool → List (Edge σ) → List (Edge σ) × List Bool × Option Bool
  | arrow, [] => ([], [], arrow)
  | arrow, e :: es =>
    if arrowValid e then
      match arrow with
      | some a =>
        if a = e.arrow then
          let r := mergeArrow (some a) es
          (e :: r.1, false :: r.2.1, r.2.2)
        else
          let r := mergeArrow (some a) es
          ({ e with arrow := e.arrow ^^ true } :: r.1, true :: r.2.1, r.2.2)
      | none =>
        let r := mergeArrow (some e.arrow) es
        (e :: r.1, false :: r.2.1, r.2.2)
    else
      let r := mergeArrow arrow es
      (e :: r.1, false :: r.2.1, r.2.2)

/-- The variables created at edge_operator.hpp 371-491. -/
structure MergeStage (σ : Type) where
  /-- `edge_before_merge` -/
  before : List (Edge σ)
  /-- `reversed_after_transpose_flag` -/
  flag : List Bool
  /-- `result_edge` -/
  result : List (Edge σ)
  /-- `merge_offset` -/
  offset : List (List (List σ × (σ × ℕ)))
deriving DecidableEq, Repr

/-- edge_operator.hpp 430-470: the merged edge of one group (with arrows already fixed). -/
def mergedEdge [TatSym σ] (arrow : Bool) (group : List (Edge σ)) :
    Edge σ × List (List σ × (σ × ℕ)) :=
  match group with
  | [e] => (e, [])
  | _ =>
    let r := mergeGroup (group.map Edge.map)
    (⟨arrow, r.1⟩, r.2)

/-- edge_operator.hpp 395-472: the loop over the positions after merge; `n` positions remain, the
current one is `k`; `rest` are the remaining flagged edges. -/
def mergeLoop [TatSym σ] (garbage : ℕ → Bool) : ℕ → ℕ → List (ℕ × Edge σ) → MergeStage σ
  | 0, _, _ => ⟨[], [], [], []⟩
  | n + 1, k, rest =>
    let group := (rest.takeWhile fun x => x.1 == k).map Prod.snd
    let r := mergeLoop garbage n (k + 1) (rest.dropWhile fun x => x.1 == k)
    let a := if TatSym.isFermi σ then mergeArrow none group
      else (group, List.replicate group.length false, some false)
    let m := mergedEdge (a.2.2.getD (garbage k)) a.1
    ⟨a.1 ++ r.before, a.2.1 ++ r.flag, m.1 :: r.result, m.2 :: r.offset⟩

/-- edge_operator.hpp 371-491 -/
def mergeStage [TatSym σ] (garbage : ℕ → Bool) (mergeMapEmpty : Bool) (rankAfterMerge : ℕ)
    (flag : List ℕ) (edges : List (Edge σ)) : MergeStage σ :=
  if mergeMapEmpty then ⟨edges, List.replicate edges.length false, edges, []⟩
  else mergeLoop garbage rankAfterMerge 0 (flag.zip edges)

/-! ## data -/

/-- edge_operator.hpp 531-556, 577-600: locate a combination of fine symmetries in the coarse
(unsplit or merged) blocks: coarse symmetries and offsets. -/
def locate [TatSym σ] (offset : List (List (List σ × (σ × ℕ)))) :
    ℕ → ℕ → List (ℕ × σ) → Option (List σ × List ℕ)
  | 0, _, _ => some ([], [])
  | n + 1, k, rest =>
    let group := (rest.takeWhile fun x => x.1 == k).map Prod.snd
    let rest' := rest.dropWhile fun x => x.1 == k
    match group with
    | [s] => (locate offset n (k + 1) rest').map fun r => (s :: r.1, 0 :: r.2)
    | _ =>
      match OMap.find? (offset.getD k []) group with
      | some so => (locate offset n (k + 1) rest').map fun r => (so.1 :: r.1, so.2 :: r.2)
      | none => none

/-- edge_operator.hpp 527-560, 573-604: insert one entry of the map from fine symmetries to coarse
symmetries and offsets. -/
def locateStep [TatSym σ] (offset : List (List (List σ × (σ × ℕ)))) (rank : ℕ) (flag : List ℕ)
    (m : List (List σ × (List σ × List ℕ))) (s : List σ × ℕ) :
    List (List σ × (List σ × List ℕ)) :=
  match locate offset rank 0 (flag.zip s.1) with
  | some r => OMap.set m s.1 r
  | none => m

/-- edge_operator.hpp 525-561, 571-605: from all symmetry-allowed combinations of the fine edges. -/
def locateAll [TatSym σ] (offset : List (List (List σ × (σ × ℕ)))) (rank : ℕ) (flag : List ℕ)
    (edges : List (Edge σ)) : List (List σ × (List σ × List ℕ)) :=
  (initBlocks edges).foldl (locateStep offset rank flag) []

/-- edge_operator.hpp 562-565, 606-608: without split or merge every block is itself. -/
def locateBlocks [TatSym σ] (rank : ℕ) (blocks : List (List σ × List α)) :
    List (List σ × (List σ × List ℕ)) :=
  blocks.foldl (fun m b => OMap.set m b.1 (b.1, List.replicate rank 0)) []

/-- edge_operator.hpp 622-649: the marks; an operation applies its sign if `apply_parity` is true
and the name is not excluded, or `apply_parity` is false and the name is excluded. -/
def marks [DecidableEq ν] (applyParity : Bool) (exclude names : List ν) : List Bool :=
  names.map fun n => if applyParity then !decide (n ∈ exclude) else decide (n ∈ exclude)

/-- `edges[i].map.at(symmetries[i])` for all `i`. -/
def lookupDims [TatSym σ] : List (Edge σ) → List σ → Outcome (List ℕ)
  | [], _ => .ok []
  | _ :: _, [] => .ub
  | e :: es, s :: ss =>
    match OMap.find? e.map s with
    | none => .error "map::at"
    | some d => (lookupDims es ss).bind fun r => .ok (d :: r)

/-- edge_operator.hpp 713-721, 733-740: leadings of the coarse block, from the back. -/
def leadingsOf : List ℕ → List ℕ
  | [] => []
  | [_] => [1]
  | _ :: d' :: ds => (leadingsOf (d' :: ds)).headD 1 * d' :: leadingsOf (d' :: ds)

/-- edge_operator.hpp 722-730, 741-749: leadings of the fine block, from the back. -/
def fineLeadings (coarse : List ℕ) : List (ℕ × ℕ) → List ℕ
  | [] => []
  | [x] => [coarse.getD x.1 0]
  | x :: y :: xs =>
    (if x.1 = y.1 then (fineLeadings coarse (y :: xs)).headD 1 * y.2 else coarse.getD x.1 0) ::
      fineLeadings coarse (y :: xs)

/-- Everything the main copy loop reads. -/
structure CopyPlan (σ α : Type) where
  source : Core σ α
  /-- `edge_before_transpose` -/
  edgesBefore : List (Edge σ)
  s2d : List ℕ
  d2s : List ℕ
  splitFlag : List ℕ
  mergeFlag : List ℕ
  reversedBefore : List Bool
  reversedAfter : List Bool
  splitMark : List Bool
  reverseMark : List Bool
  reverseMergeMark : List Bool
  mergeMark : List Bool
  destination : List (List σ × (List σ × List ℕ))
  /-- `edge_after_merge` -/
  edgesAfter : List (Edge σ)

/-- edge_operator.hpp 752-761: the sign of one block. -/
def blockParity [TatSym σ] (p : CopyPlan σ α) (before after : List σ) : Bool :=
  if TatSym.isFermi σ then
    getTransposeParity (before.map TatSym.fermi) p.s2d
    ^^ getReverseParity (before.map TatSym.fermi) p.reversedBefore p.reverseMark
    ^^ getSplitMergeParity (before.map TatSym.fermi) p.splitFlag p.splitMark
    ^^ getReverseParity (after.map TatSym.fermi) p.reversedAfter p.reverseMergeMark
    ^^ getSplitMergeParity (after.map TatSym.fermi) p.mergeFlag p.mergeMark
  else false

/-- edge_operator.hpp 658-769: the body of the main copy loop; the state are the blocks of the
result. -/
def copyBlock [Neg α] [TatSym σ] (pf : Platform) (p : CopyPlan σ α)
    (blocks : List (List σ × List α)) (entry : List σ × (List σ × List ℕ)) :
    Outcome (List (List σ × List α)) :=
  let before := entry.1
  let sourceSyms := entry.2.1
  let sourceOffsets := entry.2.2
  (lookupDims p.edgesBefore before).bind fun dimsBefore =>
  let dimsAfter := scatter 0 p.s2d dimsBefore
  let after := scatter 0 p.s2d before
  match OMap.find? p.destination after with
  | none => .error "map::at"
  | some (destSyms, destOffsets) =>
  match OMap.find? p.source.blocks sourceSyms with
  | none => .error "map::at"
  | some sourceBlock =>
  match OMap.find? blocks destSyms with
  | none => .error "map::at"
  | some destBlock =>
  (lookupDims p.source.edges sourceSyms).bind fun sourceDims =>
  (lookupDims p.edgesAfter destSyms).bind fun destDims =>
  let args : TransposeArgs := {
    s2d := p.s2d
    d2s := p.d2s
    dimsS := dimsBefore
    dimsD := dimsAfter
    leadS := fineLeadings (leadingsOf sourceDims) (p.splitFlag.zip dimsBefore)
    leadD := fineLeadings (leadingsOf destDims) (p.mergeFlag.zip dimsAfter)
    rank := p.s2d.length }
  (doTranspose pf sourceBlock (horner sourceDims sourceOffsets) destBlock
    (horner destDims destOffsets) args dimsBefore.prod (blockParity p before after)).bind
    fun data => .ok (OMap.set blocks destSyms data)

/-- edge_operator.hpp 45-774 `edge_operator`. -/
def edgeOperator [Neg α] [Zero α] [LinearOrder ν] [TatSym σ] (env : Env σ α) (t : Tensor ν σ α)
    (a : EdgeArgs ν σ) : Outcome (Tensor ν σ α) :=
  let names1 := nameBeforeSplit a.rename t.names
  if isSameVector names1 a.newNames && a.split.isEmpty && a.reversed.isEmpty && a.merge.isEmpty &&
      a.cut.isEmpty then
    .ok ⟨a.newNames, t.core⟩
  else
  let edges1 := edgeBeforeSplit a.cut t.names t.core.edges
  let sp := splitStage a.split names1 edges1
  let edgesBefore := reverseEdges a.reversed sp.names sp.edges
  let mn := mergeNames a.merge a.newNames
  if sp.names.length ≠ mn.1.length then .error "Tensor to transpose with Different Rank"
  else
  (planLoop (nameToIndex sp.names) mn.1).bind fun d2s =>
  let s2d := scatter 0 d2s (List.range d2s.length)
  let edgesTransposed := gather {} d2s edgesBefore
  let ms := mergeStage env.garbage a.merge.isEmpty a.newNames.length mn.2 edgesTransposed
  (newCore env.junk ms.result).bind fun core =>
  (checkValidName a.newNames core.edges.length).bind fun _ =>
  let source :=
    if !a.split.isEmpty || (TatSym.isFermi σ && !a.reversed.isEmpty) then
      locateAll sp.offset t.names.length sp.flag sp.edges
    else locateBlocks t.names.length t.core.blocks
  let destination :=
    if !a.merge.isEmpty then locateAll ms.offset a.newNames.length mn.2 ms.before
    else locateBlocks a.newNames.length core.blocks
  let result : Tensor ν σ α := ⟨a.newNames, core⟩
  let result := if TatSym.isNoSym σ then result else zero result
  let plan : CopyPlan σ α := {
    source := t.core
    edgesBefore := edgesBefore
    s2d := s2d
    d2s := d2s
    splitFlag := sp.flag
    mergeFlag := mn.2
    reversedBefore := reverseFlags a.reversed sp.names
    reversedAfter := ms.flag
    splitMark := marks a.applyParity a.excludeSplit names1
    reverseMark := marks a.applyParity a.excludeReverse sp.names
    reverseMergeMark := marks a.applyParity a.excludeReverseMerge mn.1
    mergeMark := marks a.applyParity a.excludeMerge a.newNames
    destination := destination
    edgesAfter := core.edges }
  (source.foldlM (copyBlock env.pf plan) result.core.blocks).bind fun blocks =>
  .ok ⟨a.newNames, ⟨core.edges, blocks⟩⟩

end TAT
