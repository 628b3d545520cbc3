import Verif.Decomp.Model

/-!
# Model of `include/TAT/qr.hpp` 189-447

The LAPACK routines `gelqf`, `orglq`, `geqrf`, `orgqr` are parameters; `none` means that they report
an error (`result != 0`).  The queries for the size of the workspace are not modelled.  Matrix sizes
are unbounded (`int` in the code).  With the default `TAT_ERROR_BITS` a missing name is only warned
about.
-/

namespace TAT

variable {ν σ α : Type}

/-- The routines used.  Matrices are column-major; `gelqf n m a` and `geqrf n m a` get an `n`×`m`
matrix and return the memory afterwards and `tau`; `orglq r c k a tau` and `orgqr r c k a tau` get an
`r`×`c` matrix. -/
structure LapackQr (α : Type) where
  gelqf : ℕ → ℕ → List α → Option (List α × List α)
  orglq : ℕ → ℕ → ℕ → List α → List α → Option (List α)
  geqrf : ℕ → ℕ → List α → Option (List α × List α)
  orgqr : ℕ → ℕ → ℕ → List α → List α → Option (List α)

/-- `data[start], …` of a given length; undefined outside of the vector. -/
def readRange (data : List α) (start len : ℕ) : Outcome (List α) :=
  if start + len ≤ data.length then .ok ((data.drop start).take len) else .ub

/-- Write a vector to the front of a destination; undefined if it does not fit. -/
def fillFront (dst l : List α) : Outcome (List α) :=
  if l.length ≤ dst.length then .ok (l ++ dst.drop l.length) else .ub

/-- Read several ranges, each put between zeros, one after the other. -/
def readPadded [Zero α] (data : List α) (before start len after : ℕ → ℕ) :
    List ℕ → Outcome (List α)
  | [] => .ok []
  | i :: is =>
    (readRange data (start i) (len i)).bind fun x =>
    (readPadded data before start len after is).bind fun r =>
    .ok (List.replicate (before i) 0 ++ x ++ List.replicate (after i) 0 ++ r)

/-- An error flag of LAPACK. -/
def orError {β : Type} (message : String) : Option β → Outcome β
  | some x => .ok x
  | none => .error message

/-- qr.hpp 199-240: the `n`×`m` matrix (column-major) as lower triangle times rows. -/
def lqKernel [Zero α] (lp : LapackQr α) (m n min : ℕ) (data d1 d2 : List α) :
    Outcome (List α × List α) :=
  (orError "Error in LQ" (lp.gelqf n m data)).bind fun f =>
  (readPadded f.1 (fun _ => 0) (fun i => i * n) (fun _ => min) (fun _ => 0) (List.range m)).bind
    fun top =>
  (fillFront d1 top).bind fun d1 =>
  (orError "Error in LQ" (lp.orglq min m min d1 f.2)).bind fun d1 =>
  (readPadded f.1 (fun i => i) (fun i => i * n + i) (fun i => n - i) (fun _ => 0)
    (List.range min)).bind fun lower =>
  (fillFront d2 lower).bind fun d2 =>
  .ok (d1, d2)

/-- qr.hpp 241-282: the `n`×`m` matrix (column-major) as columns times upper triangle. -/
def qrKernel [Zero α] (lp : LapackQr α) (m n min : ℕ) (data d1 d2 : List α) :
    Outcome (List α × List α) :=
  (orError "Error in QR" (lp.geqrf n m data)).bind fun f =>
  (readRange f.1 0 (n * min)).bind fun left =>
  (fillFront d2 left).bind fun d2 =>
  (orError "Error in QR" (lp.orgqr n min min d2 f.2)).bind fun d2 =>
  (readPadded f.1 (fun _ => 0) (fun i => n * i) (fun i => i + 1) (fun i => min - (i + 1))
    (List.range min)).bind fun upper =>
  (readRange f.1 (n * min) (n * m - n * min)).bind fun rest =>
  (fillFront d1 (upper ++ rest)).bind fun d1 =>
  .ok (d1, d2)

/-- qr.hpp 189-283 `calculate_qr_kernel` -/
def calculateQrKernel [Zero α] (lp : LapackQr α) (useQr : Bool) (m n min : ℕ)
    (data d1 d2 : List α) : Outcome (List α × List α) :=
  if useQr then lqKernel lp m n min data d1 d2 else qrKernel lp m n min data d1 d2

/-- qr.hpp 285-311 `calculate_qr`; `junk` is the content of the new vectors. -/
def calculateQr [Zero α] [Neg α] (lp : LapackQr α) (junk : ℕ → α) (useQr : Bool) (m n : ℕ)
    (data d1 d2 : List α) : Outcome (List α × List α) :=
  let min := if m > n then n else m
  if m > n then
    (matrixTranspose m n data ((List.range (n * m)).map junk)).bind fun newData =>
    (calculateQrKernel lp (!useQr) n m min newData ((List.range (n * min)).map junk)
      ((List.range (min * m)).map junk)).bind fun r =>
    (matrixTranspose n min r.1 d2).bind fun d2 =>
    (matrixTranspose min m r.2 d1).bind fun d1 =>
    .ok (d1, d2)
  else calculateQrKernel lp useQr m n min data d1 d2

/-- The names `InternalName::QR_1`, `QR_2` (name.hpp). -/
structure QrNames (ν : Type) where
  x1 : ν
  x2 : ν

/-- qr.hpp 324-332: which side the given names are on. -/
def qrDirection (direction : Char) : Outcome Bool :=
  if direction = 'r' ∨ direction = 'R' then .ok true
  else if direction = 'q' ∨ direction = 'Q' then .ok false
  else .error "Invalid direction in QR"

/-- qr.hpp 333: `use_qr_not_lq` -/
def useQrNotLq [DecidableEq ν] (useR : Bool) (set names : List ν) : Bool :=
  match names.getLast? with
  | none => true
  | some n => decide (decide (n ∈ set) = useR)

/-- qr.hpp 354-384: the name goes to the second factor. -/
def inSecond [DecidableEq ν] (useR useQr : Bool) (set : List ν) (n : ν) : Bool :=
  decide (decide (decide (n ∈ set) = useR) = useQr)

/-- qr.hpp 314-447 `qr`: returns Q and R. -/
def qr [Zero α] [Neg α] [LinearOrder ν] [TatSym σ] (lp : LapackQr α) (env : DecompEnv σ α)
    (junk : ℕ → α) (qn : QrNames ν) (t : Tensor ν σ α) (direction : Char) (set : List ν)
    (commonQ commonR : ν) : Outcome (Tensor ν σ α × Tensor ν σ α) :=
  (qrDirection direction).bind fun useR =>
  let useQr := useQrNotLq useR set t.names
  let free1 := t.names.filter fun n => !inSecond useR useQr set n
  let free2 := t.names.filter fun n => inSecond useR useQr set n
  let c1 := if useQr then commonQ else commonR
  let c2 := if useQr then commonR else commonQ
  (edgeOperator env.merge t (mergeArgsOf t [(qn.x1, free1), (qn.x2, free2)] [qn.x1, qn.x2])).bind
    fun merged =>
  (factorise (fun m n data d1 d2 =>
      (calculateQr lp junk useQr m n data d1 d2).bind fun r => .ok (r.1, (), r.2)) ()
    env.junk1 env.junk2 qn.x1 qn.x2 c1 c2 merged).bind fun f =>
  let rev1 := reversedFree free1 t ++ if TatSym.isFermi σ && useQr then [commonQ] else []
  let rev2 := reversedFree free2 t ++ if TatSym.isFermi σ && !useQr then [commonQ] else []
  (edgeOperator env.split1 f.1
    (unfoldArgs qn.x1 (splitParts free1 t) rev1 (free1 ++ [c1]) [] [])).bind fun r1 =>
  (edgeOperator env.split2 f.2.1
    (unfoldArgs qn.x2 (splitParts free2 t) rev2 (c2 :: free2) (if useQr then [] else [commonQ])
      [])).bind fun r2 =>
  .ok (if useQr then (r1, r2) else (r2, r1))

end TAT
