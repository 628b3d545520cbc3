import Verif.EdgeOp.Model
import Verif.Tensor.Spec

/-!
# Specification vocabulary for edge operations

Splitting and merging relate a *fine* index (one symmetry value and one number for every edge of a
group) with a *coarse* index of the whole group.
-/

namespace TAT

variable {ν σ α : Type}

/-- Dimension of a symmetry in an edge map, 0 if absent. -/
def dimM [TatSym σ] (m : List (σ × ℕ)) (s : σ) : ℕ := (OMap.find? m s).getD 0

/-- All combinations of symmetries of the edges of a group in lexicographic order, with the number
of elements of each. -/
def combos (maps : List (List (σ × ℕ))) : List (List σ × ℕ) :=
  (choices maps).map fun c => (c.map Prod.fst, (c.map Prod.snd).prod)

/-- The combinations with a given total symmetry. -/
def sameTotal [TatSym σ] (maps : List (List (σ × ℕ))) (s : σ) : List (List σ × ℕ) :=
  (combos maps).filter fun c => c.1.sum = s

/-- Total size of the entries standing before key `k`. -/
def prefixSize {κ : Type} [DecidableEq κ] (l : List (κ × ℕ)) (k : κ) : ℕ :=
  ((l.takeWhile fun c => decide (c.1 ≠ k)).map Prod.snd).sum

/-- Where the elements of a combination start inside the merged edge: behind all earlier
combinations with the same total symmetry. -/
def mergeOffset [TatSym σ] (maps : List (List (σ × ℕ))) (key : List σ) : ℕ :=
  prefixSize (sameTotal maps key.sum) key

/-- Dimension of the merged edge: all combinations with that total together. -/
def mergedDim [TatSym σ] (maps : List (List (σ × ℕ))) (s : σ) : ℕ :=
  ((sameTotal maps s).map Prod.snd).sum

/-- Coarse number of a fine index of one group. -/
def groupIdx [TatSym σ] (fm : ν → List (σ × ℕ)) (g : List ν) (p : ν → σ × ℕ) : ℕ :=
  mergeOffset (g.map fm) (keyOf g p) +
    rowMajor (g.map fun n => dimM (fm n) (p n).1) (idxOf g p)

/-- Coarse symmetries of a fine position, one per group. -/
def coarseKey [TatSym σ] (groups : List (List ν)) (p : ν → σ × ℕ) : List σ :=
  groups.map fun g => (keyOf g p).sum

/-- Coarse numbers of a fine position, one per group. -/
def coarseIdx [TatSym σ] (fm : ν → List (σ × ℕ)) (groups : List (List ν)) (p : ν → σ × ℕ) :
    List ℕ :=
  groups.map fun g => groupIdx fm g p

/-- A fine position is valid: every number is below its dimension and the symmetries add up to
zero. -/
def FineOk [TatSym σ] (fm : ν → List (σ × ℕ)) (names : List ν) (p : ν → σ × ℕ) : Prop :=
  (∀ n ∈ names, (p n).2 < dimM (fm n) (p n).1) ∧ (keyOf names p).sum = 0

/-! ## grouping -/

/-- The fine edges: every edge to be split is replaced by its parts, which take its arrow. -/
def fineEdges [LinearOrder ν] (splitMap : List (ν × List (ν × List (σ × ℕ))))
    (edges : List (ν × Edge σ)) : List (ν × Edge σ) :=
  edges.flatMap fun x =>
    match OMap.find? splitMap x.1 with
    | some parts => parts.map fun q => (q.1, ⟨x.2.arrow, q.2⟩)
    | none => [x]

/-- The names of the parts of every edge; an edge that is not split is its own part. -/
def splitGroups [LinearOrder ν] (splitMap : List (ν × List (ν × List (σ × ℕ)))) (names : List ν) :
    List (List ν) :=
  names.map fun n =>
    match OMap.find? splitMap n with
    | some parts => parts.map Prod.fst
    | none => [n]

/-- The names going into every result edge. -/
def mergeGroups [LinearOrder ν] (mergeMap : List (ν × List ν)) (newNames : List ν) :
    List (List ν) :=
  newNames.map fun n =>
    match OMap.find? mergeMap n with
    | some group => group
    | none => [n]

/-- The edge belonging to a name. -/
def edgeNamed [DecidableEq ν] (edges : List (ν × Edge σ)) (n : ν) : Edge σ :=
  ((edges.find? fun x => decide (x.1 = n)).map Prod.snd).getD {}

/-- The arrow of a merged edge: that of the first member whose arrow matters. -/
def firstArrow [TatSym σ] (es : List (Edge σ)) : Option Bool :=
  (es.find? arrowValid).map Edge.arrow

/-- The members of a merge group that are reversed to fit the arrow of the group. -/
def flipFlags [TatSym σ] (es : List (Edge σ)) : List Bool :=
  es.map fun e => arrowValid e && decide (firstArrow es ≠ some e.arrow)

end TAT
