import Verif.Transpose.Model

/-!
# Specification of moving data between two strided boxes
-/

namespace TAT

variable {α : Type}

/-- Address of an index tuple under given strides. -/
def dot (idx strides : List ℕ) : ℕ := (List.zipWith (· * ·) idx strides).sum

/-- `dst'` is `dst` after moving the box: for every index tuple in the box the (signed) source
element arrived at its destination address, every other address is unchanged. -/
structure Moved [Neg α] (parity : Bool) (dims ls ld : List ℕ) (src : List α) (sOff : ℕ)
    (dst : List α) (dOff : ℕ) (dst' : List α) : Prop where
  length : dst'.length = dst.length
  moved : ∀ idx, InBox dims idx →
    dst'[dOff + dot idx ld]? = (src[sOff + dot idx ls]?).map (signed parity)
  frame : ∀ o, (∀ idx, InBox dims idx → o ≠ dOff + dot idx ld) → dst'[o]? = dst[o]?

/-- The box lies inside both arrays, and two index tuples with the same destination address have the
same source address. -/
structure Fits (dims ls ld : List ℕ) (src : List α) (sOff : ℕ) (dst : List α) (dOff : ℕ) :
    Prop where
  lenS : ls.length = dims.length
  lenD : ld.length = dims.length
  src : ∀ idx, InBox dims idx → sOff + dot idx ls < src.length
  dst : ∀ idx, InBox dims idx → dOff + dot idx ld < dst.length
  inj : ∀ idx idx', InBox dims idx → InBox dims idx' → dot idx ld = dot idx' ld →
    dot idx ls = dot idx' ls

/-- The arguments of a transpose are consistent: the plans are inverse permutations of the axes and
the dimensions agree. -/
structure TransposeArgs.Ok (a : TransposeArgs) : Prop where
  s2dLen : a.s2d.length = a.rank
  d2sLen : a.d2s.length = a.rank
  dimsSLen : a.dimsS.length = a.rank
  dimsDLen : a.dimsD.length = a.rank
  leadSLen : a.leadS.length = a.rank
  leadDLen : a.leadD.length = a.rank
  s2dLt : ∀ i < a.rank, a.s2d.getD i 0 < a.rank
  d2sLt : ∀ i < a.rank, a.d2s.getD i 0 < a.rank
  leftInv : ∀ i < a.rank, a.d2s.getD (a.s2d.getD i 0) 0 = i
  rightInv : ∀ i < a.rank, a.s2d.getD (a.d2s.getD i 0) 0 = i
  dims : ∀ i < a.rank, a.dimsD.getD i 0 = a.dimsS.getD (a.d2s.getD i 0) 0

/-- The source strides in the order of the destination axes. -/
def TransposeArgs.leadSByDst (a : TransposeArgs) : List ℕ :=
  (List.range a.rank).map fun i => a.leadS.getD (a.d2s.getD i 0) 0

end TAT
