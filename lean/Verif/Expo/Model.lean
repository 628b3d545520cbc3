import Verif.Decomp.Model
import Verif.Qr.Model
import Mathlib.Algebra.Field.Defs

/-!
# Model of `include/TAT/exponential.hpp` 55-241

`gemm`, `gesv`, `std::abs` and `std::log2` are parameters.  Scalars form a field; `int` is unbounded
except for the shift `1 << j`.  The number of steps is a natural number: with `step <= 0` the code
runs no step, as with `0` here.
-/

namespace TAT

variable {ν σ α ρ : Type}

/-- The routines used by the exponential.  `gesv n nrhs a b` gets column-major matrices and returns
the memory at `b` afterwards and whether the flag is zero.  `intLog2 x` is `int(std::log2(x))`;
`none` if the logarithm is not a finite number that fits (converting it is undefined). -/
structure ExpoLib (α ρ : Type) where
  gemm : Gemm α
  gesv : ℕ → ℕ → List α → List α → List α × Bool
  abs : α → ρ
  intLog2 : ρ → Option ℤ

/-- Content of a new vector that is not initialised. -/
def freshVec (junk : ℕ → α) (n : ℕ) : List α := (List.range n).map junk

/-- exponential.hpp 55-71 `linear_solve`; returns the memory at `X`.  With the default setting a flag
of `gesv` is only warned about. -/
def linearSolve [Neg α] (lib : ExpoLib α ρ) (junk : ℕ → α) (n nrhs : ℕ) (a b x : List α) :
    Outcome (List α) :=
  (matrixTranspose n n a (freshVec junk (n * n))).bind fun at' =>
  (matrixTranspose n nrhs b (freshVec junk (n * nrhs))).bind fun bt =>
  matrixTranspose nrhs n (lib.gesv n nrhs at' bt).1 x

/-- exponential.hpp 73-81 `max_of_abs` -/
def maxOfAbs [Zero ρ] [LT ρ] [DecidableLT ρ] (abs : α → ρ) (data : List α) : ρ :=
  data.foldl (fun result x => if result < abs x then abs x else result) 0

/-- exponential.hpp 83-92 `initialize_identity_matrix`: `n - 1` times a one and `n` zeros, then a one.
For `n = 0` the counter wraps around and the loop leaves the vector. -/
def identityMatrix [Zero α] [One α] (n : ℕ) (dst : List α) : Outcome (List α) :=
  if n = 0 then .ub
  else fillFront dst ((List.replicate (n - 1) ((1 : α) :: List.replicate n 0)).flatten ++ [1])

/-- exponential.hpp 124, 145: the product of square matrices. -/
def squareGemm [Zero α] [One α] (n : ℕ) (a b c : List α) : GemmArgs α where
  ta := false
  tb := false
  m := n
  n := n
  k := n
  alpha := 1
  a := a
  lda := n
  b := b
  ldb := n
  beta := 0
  c := c
  ldc := n

/-- What changes in the loop 116-131. -/
structure PadeState (α : Type) where
  c : α
  old : List α
  new : List α
  num : List α
  den : List α

/-- exponential.hpp 116-131: the step `k`. -/
def padeStep [Field α] (lib : ExpoLib α ρ) (n q : ℕ) (a : List α) (s : PadeState α) (k : ℕ) :
    Outcome (PadeState α) :=
  let c := s.c * ((q - k + 1 : ℕ) : α) / (((2 * q - k + 1) * k : ℕ) : α)
  (lib.gemm (squareGemm n s.old a s.new)).bind fun x =>
  let d := if k % 2 = 0 then c else -c
  .ok {
    c := c
    old := x
    new := s.old
    num := List.zipWith (fun y z => y + c * z) s.num x
    den := List.zipWith (fun y z => y + d * z) s.den x }

/-- exponential.hpp 138-146: squaring; `cur` and `other` are the two vectors in turn, the last square
goes to `f`. -/
def squareLoop [Zero α] [One α] (lib : ExpoLib α ρ) (n : ℕ) (f : List α) :
    ℕ → List α → List α → Outcome (List α)
  | 0, _, _ => .ok f
  | 1, cur, _ => lib.gemm (squareGemm n cur cur f)
  | j + 2, cur, other =>
    (lib.gemm (squareGemm n cur cur other)).bind fun x => squareLoop lib n f (j + 1) x cur

/-- exponential.hpp 98: `j`; the shift `1 << j` needs `j < 31`. -/
def scaling [Zero ρ] [LT ρ] [DecidableLT ρ] (lib : ExpoLib α ρ) (a : List α) : Outcome ℕ :=
  match lib.intLog2 (maxOfAbs lib.abs a) with
  | none => .ub
  | some l => if (max 0 (1 + l)).toNat < 31 then .ok (max 0 (1 + l)).toNat else .ub

/-- exponential.hpp 94-147 `matrix_exponential`; returns the memory at `F`. -/
def matrixExponential [Field α] [Zero ρ] [LT ρ] [DecidableLT ρ] (lib : ExpoLib α ρ) (junk : ℕ → α)
    (n : ℕ) (a f : List α) (q : ℕ) : Outcome (List α) :=
  if a.length < n * n then .ub
  else
  (scaling lib (a.take (n * n))).bind fun j =>
  let a := (a.take (n * n)).map fun x => x * (1 / ((2 ^ j : ℕ) : α))
  let v := freshVec junk (n * n)
  (identityMatrix n v).bind fun d =>
  (identityMatrix n v).bind fun m =>
  (identityMatrix n v).bind fun x1 =>
  ((List.range q).foldlM (fun s i => padeStep lib n q a s (i + 1)) (⟨1, x1, v, m, d⟩ : PadeState α)).bind
    fun s =>
  if j = 0 then linearSolve lib junk n n s.den s.num f
  else (linearSolve lib junk n n s.den s.num v).bind fun r => squareLoop lib n f j r v

/-- The names `InternalName::Exp_1`, `Exp_2` (name.hpp 155-156). -/
structure ExpNames (ν : Type) where
  e1 : ν
  e2 : ν

/-- exponential.hpp 174-197: the pair a name belongs to, and which name is its partner. -/
def expFind [DecidableEq ν] (pairs : List (ν × ν)) (n : ν) : Option ((ν × ν) × ν) :=
  pairs.findSome? fun c =>
    if c.1 = n then some (c, c.2) else if c.2 = n then some (c, c.1) else none

/-- What is written for a pair: its two names with the maps of their edges. -/
abbrev ExpPair (ν σ : Type) := (ν × List (σ × ℕ)) × (ν × List (σ × ℕ))

/-- exponential.hpp 169-199: the loop over the edges from the last to the first; `invalid` are the
indices with `valid_index[i] == false`, `room` is `current_index`: the vectors are written below it,
so with more pairs than `rank / 2` the counter wraps around and the write is undefined.  The pairs
are returned in the order of the vectors, with the number of entries never written. -/
def expLoop [LinearOrder ν] (index : List (ν × ℕ)) (edges : List (Edge σ)) (pairs : List (ν × ν)) :
    List (ν × ℕ) → List ℕ → ℕ → List (ExpPair ν σ) → Outcome (ℕ × List (ExpPair ν σ))
  | [], _, room, acc => .ok (room, acc)
  | x :: rest, invalid, room, acc =>
    if x.2 ∈ invalid then expLoop index edges pairs rest invalid room acc
    else
      match expFind pairs x.1 with
      | none => expLoop index edges pairs rest invalid room acc
      | some c =>
        match OMap.find? index c.1.1, OMap.find? index c.1.2, OMap.find? index c.2 with
        | some ia, some ib, some j =>
          match room with
          | 0 => .ub
          | room + 1 =>
            expLoop index edges pairs rest (j :: invalid) room
              (((c.1.1, (edges.getD ia {}).map), (c.1.2, (edges.getD ib {}).map)) :: acc)
        | _, _, _ => .error "map::at"

/-- exponential.hpp 235-239: one block. -/
def expBlock [Field α] [Zero ρ] [LT ρ] [DecidableLT ρ] [TatSym σ] (lib : ExpoLib α ρ)
    (junk : ℕ → α) (step : ℕ) (edges : List (Edge σ)) (blocks : List (List σ × List α))
    (b : List σ × List α) : Outcome (List (List σ × List α)) :=
  match OMap.find? blocks b.1 with
  | none => .error "map::at"
  | some dst =>
    match b.1, edges with
    | s :: _, e :: _ =>
      match OMap.find? e.map s with
      | none => .error "map::at"
      | some n =>
        (matrixExponential lib junk n b.2 dst step).bind fun r => .ok (OMap.set blocks b.1 r)
    | _, _ => .ub

/-- The surroundings of one call: for the merge, for the result, for the matrices and for the
split. -/
structure ExpEnv (σ α : Type) where
  merge : Env σ α
  shape : List σ → ℕ → α
  junk : ℕ → α
  split : Env σ α

/-- exponential.hpp 150-241 `exponential`; `noName` is the default name, which stays in the vectors
where nothing is written. -/
def exponential [Field α] [Zero ρ] [LT ρ] [DecidableLT ρ] [LinearOrder ν] [TatSym σ]
    (lib : ExpoLib α ρ) (env : ExpEnv σ α) (en : ExpNames ν) (noName : ν) (t : Tensor ν σ α)
    (pairs : List (ν × ν)) (step : ℕ) : Outcome (Tensor ν σ α) :=
  (expLoop (nameToIndex t.names) t.core.edges pairs t.names.zipIdx.reverse []
    (t.names.length / 2) []).bind fun found =>
  let split1 := List.replicate found.1 (noName, []) ++ found.2.map Prod.fst
  let split2 := List.replicate found.1 (noName, []) ++ found.2.map Prod.snd
  let merge1 := split1.map Prod.fst
  let merge2 := split2.map Prod.fst
  if t.names ≠ [] ∧ merge1 = [] then .ub
  else
  let swapped := decide (t.names = []) || decide (t.names.getLast? = merge1.getLast?)
  let mergedNames := if swapped then [en.e2, en.e1] else [en.e1, en.e2]
  let resultNames := if swapped then merge2 ++ merge1 else merge1 ++ merge2
  (edgeOperator env.merge t (mergeArgsOf t [(en.e1, merge1), (en.e2, merge2)] mergedNames)).bind
    fun merged =>
  (sameShape env.shape merged).bind fun result =>
  (merged.core.blocks.foldlM (expBlock lib env.junk step merged.core.edges) result.core.blocks).bind
    fun blocks =>
  edgeOperator env.split ⟨result.names, ⟨result.core.edges, blocks⟩⟩ {
    split := OMap.ofList [(en.e1, split1), (en.e2, split2)]
    reversed := reversedFree t.names t
    newNames := resultNames }

end TAT
