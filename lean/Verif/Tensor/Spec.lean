import Verif.Tensor.Model
import Verif.Core.Props

/-!
# Specification vocabulary for tensors
-/

namespace TAT

variable {ν σ α : Type}

/-- A well formed tensor: one name per edge, names distinct, edge maps ascending and pruned, and the
blocks are exactly the symmetry-allowed ones with the right sizes. -/
structure WF [TatSym σ] (t : Tensor ν σ α) : Prop where
  rank : t.names.length = t.core.edges.length
  nodup : t.names.Nodup
  sorted : ∀ e ∈ t.core.edges, OMap.Sorted e.map
  blocks : t.core.blocks.map (fun b => (b.1, b.2.length)) =
    blockShapes (t.core.edges.map Edge.map)
  pruned : prunedEdges t.core.edges = t.core.edges

/-- As `WF`, but edges may have symmetries which no block has. -/
structure Shaped [TatSym σ] (t : Tensor ν σ α) : Prop where
  rank : t.names.length = t.core.edges.length
  nodup : t.names.Nodup
  sorted : ∀ e ∈ t.core.edges, OMap.Sorted e.map
  blocks : t.core.blocks.map (fun b => (b.1, b.2.length)) =
    blockShapes (t.core.edges.map Edge.map)

theorem WF.shaped [TatSym σ] {t : Tensor ν σ α} (h : WF t) : Shaped t :=
  ⟨h.rank, h.nodup, h.sorted, h.blocks⟩

/-- The symmetry part of a position given by names. -/
def keyOf (names : List ν) (p : ν → σ × ℕ) : List σ := names.map fun n => (p n).1

/-- The index part of a position given by names. -/
def idxOf (names : List ν) (p : ν → σ × ℕ) : List ℕ := names.map fun n => (p n).2

/-- The dimensions of the block with the given symmetries. -/
def dimsOf [TatSym σ] (edges : List (Edge σ)) (key : List σ) : List ℕ :=
  List.zipWith dimOf edges key

/-- A position by name is valid if each index is below the dimension of its symmetry and the
symmetries add up to zero. -/
def ValidPos [TatSym σ] (t : Tensor ν σ α) (p : ν → σ × ℕ) : Prop :=
  List.Forall₂ (fun e x => x.2 < dimOf e x.1) t.core.edges (t.names.map p) ∧
  (keyOf t.names p).sum = 0

/-- Element of a core at block symmetries and indices (row-major). -/
def elemAt [TatSym σ] (c : Core σ α) (key : List σ) (idx : List ℕ) : Option α :=
  (OMap.find? c.blocks key).bind fun data => data[rowMajor (dimsOf c.edges key) idx]?

/-- Element of a tensor at a position given by names. -/
def elem [TatSym σ] (t : Tensor ν σ α) (p : ν → σ × ℕ) : Option α :=
  elemAt t.core (keyOf t.names p) (idxOf t.names p)

/-- A position map (as handed to `at`) read as a function; only used when every name is present. -/
def posOf [LinearOrder ν] [TatSym σ] (position : List (ν × (σ × ℕ))) (n : ν) : σ × ℕ :=
  (OMap.find? position n).getD (0, 0)

/-- Every name of the tensor occurs in the position map. -/
def Covers [LinearOrder ν] (t : Tensor ν σ α) (position : List (ν × (σ × ℕ))) : Prop :=
  ∀ n ∈ t.names, n ∈ OMap.keys position

end TAT
