import Verif.Decomp.Model
import Verif.Svd.Cut

/-!
# Model of `include/TAT/svd.hpp` 98-428

The LAPACK routine `gesvd` is a parameter.  Its error flag is only warned about with the default
`TAT_ERROR_BITS`, so that it has no influence; the query for the size of the workspace is not
modelled.  Matrix sizes are unbounded (`int` in the code).  A missing name is only warned about.
`TAT_USE_SINGULAR_MATRIX` is not set: the singular values are returned as a table.
-/

namespace TAT

variable {ν σ α β : Type}

/-- `gesvd("S", "S", n, m, a, …)`: from an `n`×`m` matrix (column-major) to `U` (`n`×`min`), the
singular values and `VT` (`min`×`m`). -/
abbrev Gesvd (α β : Type) := ℕ → ℕ → List α → List α × List β × List α

/-- svd.hpp 168-250 `calculate_svd_kernel`: `gesvd` gets the transposed matrix, so that what it calls
`U` is written to `vt` and what it calls `VT` to `u`. Returns `u`, `s`, `vt`. -/
def calculateSvdKernel (gesvd : Gesvd α β) (m n : ℕ) (a : List α) : List α × List β × List α :=
  ((gesvd n m a).2.2, (gesvd n m a).2.1, (gesvd n m a).1)

/-- svd.hpp 136-165 `calculate_svd`; `junk` is the content of the new vectors. -/
def calculateSvd [Neg α] (gesvd : Gesvd α β) (junk : ℕ → α) (m n : ℕ) (a u vt : List α) :
    Outcome (List α × List β × List α) :=
  let min := if m > n then n else m
  if m > n then
    (matrixTranspose m n a ((List.range (n * m)).map junk)).bind fun newA =>
    let r := calculateSvdKernel gesvd n m newA
    (matrixTranspose n min r.1 vt).bind fun vt =>
    (matrixTranspose min m r.2.2 u).bind fun u =>
    .ok (u, r.2.1, vt)
  else .ok (calculateSvdKernel gesvd m n a)

/-- The names `InternalName::SVD_U`, `SVD_V` (name.hpp). -/
structure SvdNames (ν : Type) where
  u : ν
  v : ν

/-- svd.hpp 355: `result_s[symmetries[put_v_right]] = s` for all blocks. -/
def singularTable [TatSym σ] (right : Bool) (mids : List (List σ × List β)) : List (σ × List β) :=
  mids.foldl (fun m x => OMap.set m (x.1.getD (if right then 1 else 0) 0) x.2) []

/-- svd.hpp 253-428 `svd`: returns U, the singular values and V. -/
def svd [Zero α] [Neg α] [LinearOrder ν] [TatSym σ] [LinearOrder β] [Zero β] (gesvd : Gesvd α β)
    (env : DecompEnv σ α) (junk : ℕ → α) (sn : SvdNames ν) (t : Tensor ν σ α) (set : List ν)
    (commonU commonV : ν) (cut : ℕ) :
    Outcome (Tensor ν σ α × List (σ × List β) × Tensor ν σ α) :=
  let freeU := t.names.filter fun n => decide (n ∈ set)
  let freeV := t.names.filter fun n => !decide (n ∈ set)
  let right := endsLike freeV t.names
  (edgeOperator env.merge t (mergeArgsOf t [(sn.u, freeU), (sn.v, freeV)]
    (if right then [sn.u, sn.v] else [sn.v, sn.u]))).bind fun merged =>
  (factorise (calculateSvd gesvd junk) [] env.junk1 env.junk2 (if right then sn.u else sn.v)
    (if right then sn.v else sn.u) (if right then commonU else commonV)
    (if right then commonV else commonU) merged).bind fun f =>
  (cutPlan (singularTable right f.2.2) cut).bind fun plan =>
  let tensorU := if right then f.1 else f.2.1
  let tensorV := if right then f.2.1 else f.1
  let revU := reversedFree freeU t ++ if TatSym.isFermi σ then [commonU] else []
  (edgeOperator (if right then env.split1 else env.split2) tensorU
    (unfoldArgs sn.u (splitParts freeU t) revU (freeU ++ [commonU])
      (if right then [] else [commonU]) [(commonU, plan.2.1)])).bind fun u =>
  (edgeOperator (if right then env.split2 else env.split1) tensorV
    (unfoldArgs sn.v (splitParts freeV t) (reversedFree freeV t) (commonV :: freeV) []
      [(commonV, plan.2.2)])).bind fun v =>
  .ok (u, plan.1, v)

end TAT
