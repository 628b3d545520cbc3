import Verif.Basic.Outcome
import Verif.Basic.Radix

/-!
# Model of `include/TAT/transpose.hpp`

Memory is a list of elements; a pointer is an offset into it.  Reading or writing outside is the
outcome `ub`.  The two arrays are distinct (`__restrict`).  The MKL branch (`#if 0`) is not code.
The compile-time dispatch on small line sizes (`to_const`) is the subject of `Verif/Misc`; here the
line size is a number.
-/

namespace TAT

variable {α : Type}

/-- transpose.hpp 159-163, 168-172: the assigned value. -/
def signed [Neg α] (parity : Bool) (x : α) : α := if parity then -x else x

/-- transpose.hpp 168-172: one assignment. -/
def copyOne [Neg α] (parity : Bool) (src : List α) (cs cd : ℕ) (dst : List α) :
    Outcome (List α) :=
  match src[cs]? with
  | none => .ub
  | some x => if cd < dst.length then .ok (dst.set cd (signed parity x)) else .ub

/-- transpose.hpp 158-164: copy of a line. -/
def copyLine [Neg α] (parity : Bool) (src : List α) (n cs cd : ℕ) (dst : List α) :
    Outcome (List α) :=
  (List.range n).foldlM (fun dst i => copyOne parity src (cs + i) (cd + i) dst) dst

/-- The local variables `index_list`, `current_source`, `current_destination`. -/
structure Cursor where
  idx : List ℕ
  cs : ℕ
  cd : ℕ
deriving DecidableEq, Repr

/-- transpose.hpp 174-176, 189-191: advance along one axis. -/
def Cursor.bump (ls ld : List ℕ) (ap : ℕ) (c : Cursor) : Cursor :=
  ⟨c.idx.set ap (c.idx.getD ap 0 + 1), c.cs + ls.getD ap 0, c.cd + ld.getD ap 0⟩

/-- transpose.hpp 180-182: rewind one axis. -/
def Cursor.rewind (dims ls ld : List ℕ) (ap : ℕ) (c : Cursor) : Cursor :=
  ⟨c.idx.set ap 0, c.cs - dims.getD ap 0 * ls.getD ap 0, c.cd - dims.getD ap 0 * ld.getD ap 0⟩

/-- transpose.hpp 179-192: the inner `while`; `none` is the `return` of line 185. -/
def kernelCarry (dims ls ld : List ℕ) : ℕ → Cursor → Option Cursor
  | 0, c => if c.idx.getD 0 0 = dims.getD 0 0 then none else some c
  | ap + 1, c =>
    if c.idx.getD (ap + 1) 0 = dims.getD (ap + 1) 0 then
      kernelCarry dims ls ld ap ((c.rewind dims ls ld (ap + 1)).bump ls ld ap)
    else some c

/-- transpose.hpp 148-193: the outer `while (true)`, for at most `fuel` rounds (running out of fuel
counts as `ub`, the theorems show that it does not happen). -/
def kernelLoop (body : ℕ → ℕ → List α → Outcome (List α)) (advance : Cursor → Option Cursor) :
    ℕ → Cursor → List α → Outcome (List α)
  | 0, _, _ => .ub
  | fuel + 1, c, dst =>
    (body c.cs c.cd dst).bind fun dst' =>
    match advance c with
    | none => .ok dst'
    | some c' => kernelLoop body advance fuel c' dst'

/-- transpose.hpp 120-194 `tensor_transpose_kernel<ScalarType, parity, false>`. -/
def kernelPoint [Neg α] (parity : Bool) (src : List α) (sOff : ℕ) (dst : List α) (dOff : ℕ)
    (dims ls ld : List ℕ) (rank : ℕ) : Outcome (List α) :=
  kernelLoop (copyOne parity src)
    (fun c => kernelCarry dims ls ld (rank - 1) (c.bump ls ld (rank - 1)))
    dims.prod ⟨List.replicate rank 0, sOff, dOff⟩ dst

/-- transpose.hpp 155-166: after a line, the axis `line_rank` counts as complete. -/
def Cursor.endLine (dims : List ℕ) (lineRank lineSize : ℕ) (c : Cursor) : Cursor :=
  ⟨c.idx.set lineRank (dims.getD lineRank 0), c.cs + lineSize, c.cd + lineSize⟩

/-- transpose.hpp 120-194 `tensor_transpose_kernel<ScalarType, parity, true>`. -/
def kernelLine [Neg α] (parity : Bool) (src : List α) (sOff : ℕ) (dst : List α) (dOff : ℕ)
    (dims ls ld : List ℕ) (rank lineRank lineSize : ℕ) : Outcome (List α) :=
  kernelLoop (copyLine parity src lineSize)
    (fun c => kernelCarry dims ls ld lineRank (c.endLine dims lineRank lineSize))
    dims.prod ⟨List.replicate rank 0, sOff, dOff⟩ dst

/-- transpose.hpp 235-244, 351-360: find the longest contiguous tail; at `line_rank = 0` the code
reads the (arbitrary) memory `oobS`, `oobD` one element before the arrays.  Returns `line_rank` and
`expect_leading`. -/
def findLine (dims ls ld : List ℕ) (oobS oobD : ℕ) : ℕ → ℕ → ℕ × ℕ
  | 0, expect =>
    if oobS = expect * dims.getD 0 0 ∧ oobD = expect * dims.getD 0 0 then
      (0, expect * dims.getD 0 0)
    else (0, expect * dims.getD 0 0)
  | lr + 1, expect =>
    if ls.getD lr 0 = expect * dims.getD (lr + 1) 0 ∧
        ld.getD lr 0 = expect * dims.getD (lr + 1) 0 then
      findLine dims ls ld oobS oobD lr (expect * dims.getD (lr + 1) 0)
    else (lr + 1, expect * dims.getD (lr + 1) 0)

/-- transpose.hpp 234-267, 350-382: choose between lines and single elements. -/
def runKernel [Neg α] (parity : Bool) (src : List α) (sOff : ℕ) (dst : List α) (dOff : ℕ)
    (dims ls ld : List ℕ) (rank oobS oobD : ℕ) : Outcome (List α) :=
  if ls.getD (rank - 1) 0 = 1 ∧ ld.getD (rank - 1) 0 = 1 then
    let (lineRank, lineSize) := findLine dims ls ld oobS oobD (rank - 1) 1
    kernelLine parity src sOff dst dOff dims ls ld rank lineRank lineSize
  else kernelPoint parity src sOff dst dOff dims ls ld rank

/-- The arguments describing a transpose. -/
structure TransposeArgs where
  s2d : List ℕ
  d2s : List ℕ
  dimsS : List ℕ
  dimsD : List ℕ
  leadS : List ℕ
  leadD : List ℕ
  rank : ℕ
deriving DecidableEq, Repr

/-- transpose.hpp 216-268 `simple_transpose`. -/
def simpleTranspose [Neg α] (parity : Bool) (src : List α) (sOff : ℕ) (dst : List α) (dOff : ℕ)
    (a : TransposeArgs) (oobS oobD : ℕ) : Outcome (List α) :=
  let lsByDst := (List.range a.rank).map fun i => a.leadS.getD (a.d2s.getD i 0) 0
  runKernel parity src sOff dst dOff a.dimsD lsByDst a.leadD a.rank oobS oobD

/-! ## `inturn_transpose` -/

/-- transpose.hpp 303-309, 324-330: `while (mask[current]) { if (current == 0) { exhausted = true;
break; } current--; }`.  The flag keeps an earlier `true`. -/
def skipMasked (mask : List Bool) : ℕ → Bool → ℕ × Bool
  | 0, ex => if mask.getD 0 false then (0, true) else (0, ex)
  | c + 1, ex => if mask.getD (c + 1) false then skipMasked mask c ex else (c + 1, ex)

/-- transpose.hpp 311-317, 332-338: `do { if (current == 0) { exhausted = true; break; } current--;
} while (mask[current])`. -/
def stepDown (mask : List Bool) : ℕ → Bool → ℕ × Bool
  | 0, _ => (0, true)
  | c + 1, ex => if mask.getD c false then stepDown mask c ex else (c, ex)

/-- The local variables of `inturn_transpose` (transpose.hpp 281-293). The three `real_` arrays are
filled from the back; `axes` holds the part filled so far as (dimension, source leading, destination
leading). -/
structure InturnState where
  maskS : List Bool
  maskD : List Bool
  exS : Bool
  exD : Bool
  curS : ℕ
  curD : ℕ
  axes : List (ℕ × ℕ × ℕ)
deriving DecidableEq, Repr

/-- transpose.hpp 295-318 `use_source`. -/
def useSource (a : TransposeArgs) (st : InturnState) : InturnState :=
  let r := a.s2d.getD st.curS 0
  let axis := (a.dimsS.getD st.curS 0, a.leadS.getD st.curS 0, a.leadD.getD r 0)
  let maskD := st.maskD.set r true
  let (curD, exD) := skipMasked maskD st.curD st.exD
  let (curS, exS) := stepDown st.maskS st.curS st.exS
  ⟨st.maskS, maskD, exS, exD, curS, curD, axis :: st.axes⟩

/-- transpose.hpp 319-339 `use_destination`. -/
def useDestination (a : TransposeArgs) (st : InturnState) : InturnState :=
  let r := a.d2s.getD st.curD 0
  let axis := (a.dimsD.getD st.curD 0, a.leadS.getD r 0, a.leadD.getD st.curD 0)
  let maskS := st.maskS.set r true
  let (curS, exS) := skipMasked maskS st.curS st.exS
  let (curD, exD) := stepDown st.maskD st.curD st.exD
  ⟨maskS, st.maskD, exS, exD, curS, curD, axis :: st.axes⟩

/-- transpose.hpp 340-350: the loop body. -/
def inturnStep (a : TransposeArgs) (st : InturnState) : InturnState :=
  if st.exD then useSource a st
  else if st.exS then useDestination a st
  else if a.leadS.getD st.curS 0 < a.leadD.getD st.curD 0 then useSource a st
  else useDestination a st

/-- transpose.hpp 281-350: the reordered axes. -/
def inturnAxes (a : TransposeArgs) : List (ℕ × ℕ × ℕ) :=
  ((inturnStep a)^[a.rank] ⟨List.replicate a.rank false, List.replicate a.rank false, false, false,
    a.rank - 1, a.rank - 1, []⟩).axes

/-- transpose.hpp 270-383 `inturn_transpose`. -/
def inturnTranspose [Neg α] (parity : Bool) (src : List α) (sOff : ℕ) (dst : List α) (dOff : ℕ)
    (a : TransposeArgs) (oobS oobD : ℕ) : Outcome (List α) :=
  let axes := inturnAxes a
  runKernel parity src sOff dst dOff (axes.map fun x => x.1) (axes.map fun x => x.2.1)
    (axes.map fun x => x.2.2) a.rank oobS oobD

/-- The parameters of the platform: `sizeof(ScalarType)`, `l1_cache`, and the values found in memory
one element before the leading arrays. -/
structure Platform where
  sizeofScalar : ℕ
  l1Cache : ℕ
  oobS : ℕ
  oobD : ℕ
deriving DecidableEq, Repr

/-- transpose.hpp 386-464 `do_transpose`. -/
def doTranspose [Neg α] (pf : Platform) (src : List α) (sOff : ℕ) (dst : List α) (dOff : ℕ)
    (a : TransposeArgs) (totalSize : ℕ) (parity : Bool) : Outcome (List α) :=
  if totalSize = 0 then .ok dst
  else if totalSize = 1 then copyOne parity src sOff dOff dst
  else if totalSize * pf.sizeofScalar < pf.l1Cache then
    simpleTranspose parity src sOff dst dOff a pf.oobS pf.oobD
  else inturnTranspose parity src sOff dst dOff a pf.oobS pf.oobD

/-- transpose.hpp 466-472 `matrix_transpose`. -/
def matrixTranspose [Neg α] (m n : ℕ) (src dst : List α) : Outcome (List α) :=
  kernelPoint false src 0 dst 0 [m, n] [n, 1] [1, m] 2

end TAT
