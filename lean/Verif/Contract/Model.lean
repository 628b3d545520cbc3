import Verif.EdgeOp.Model
import Verif.Scalar.Model

/-!
# Model of `include/TAT/contract.hpp` 212-801 (`gemm_batch`, `contract_with_fuse`,
`contract_without_fuse`) and `include/TAT/tensor.hpp` 591-607 (`contract_all_edge`)

The matrix routine `gemm` (BLAS) is a parameter, what it is assumed to do is `GemmOk` in
`Verif/Contract/Spec.lean`.  `TAT_USE_MKL_GEMM_BATCH` is not modelled.  Matrix sizes are unbounded
(`int` in the code).  With the default `TAT_ERROR_BITS` a missing name is only warned about.
Pointers into a data vector are the vector from that place on.
-/

namespace TAT

variable {ν σ α : Type}

/-! ## gemm -/

/-- The arguments of BLAS `gemm` (contract.hpp 30-180); `ta`, `tb` mean `'T'`.  The pointers `a`, `b`
and `c` are the memory from there on. -/
structure GemmArgs (α : Type) where
  ta : Bool
  tb : Bool
  m : ℕ
  n : ℕ
  k : ℕ
  alpha : α
  a : List α
  lda : ℕ
  b : List α
  ldb : ℕ
  beta : α
  c : List α
  ldc : ℕ

/-- BLAS `gemm`: returns the memory at `c` afterwards. -/
abbrev Gemm (α : Type) := GemmArgs α → Outcome (List α)

/-- One entry of the argument lists of `gemm_batch`: the block `key` and the offset in it to which
`c` points, and the other arguments. -/
structure Job (σ α : Type) where
  key : List σ
  offset : ℕ
  ta : Bool
  tb : Bool
  m : ℕ
  n : ℕ
  k : ℕ
  alpha : α
  a : List α
  lda : ℕ
  b : List α
  ldb : ℕ
  beta : α
  ldc : ℕ

/-- One call of `gemm`, writing into the block it points to. -/
def runJob [TatSym σ] (gemm : Gemm α) (blocks : List (List σ × List α)) (j : Job σ α) :
    Outcome (List (List σ × List α)) :=
  match OMap.find? blocks j.key with
  | none => .ub
  | some data =>
    (gemm ⟨j.ta, j.tb, j.m, j.n, j.k, j.alpha, j.a, j.lda, j.b, j.ldb, j.beta,
      data.drop j.offset, j.ldc⟩).bind fun c =>
    .ok (OMap.set blocks j.key (data.take j.offset ++ c))

/-- contract.hpp 212-253 `gemm_batch`: a single call for one job, otherwise a loop. -/
def gemmBatch [TatSym σ] (gemm : Gemm α) (jobs : List (Job σ α))
    (blocks : List (List σ × List α)) : Outcome (List (List σ × List α)) :=
  match jobs with
  | [j] => runJob gemm blocks j
  | _ => jobs.foldlM (runJob gemm) blocks

/-! ## planning, the same in both functions -/

/-- The names `InternalName::Contract_0`, `Contract_1`, `Contract_2` (name.hpp 143-145). -/
structure ContractNames (ν : Type) where
  c0 : ν
  c1 : ν
  c2 : ν

/-- contract.hpp 305-316, 597-608: pairs with a missing name are dropped. -/
def keepPairs [DecidableEq ν] (names1 names2 : List ν) (pairs : List (ν × ν)) : List (ν × ν) :=
  pairs.filter fun c => decide (c.1 ∈ names1) && decide (c.2 ∈ names2)

/-- contract.hpp 317-326, 609-618: a name used twice. -/
def duplicated [DecidableEq ν] (pairs : List (ν × ν)) : Bool :=
  decide ((pairs.map Prod.fst).dedup.length ≠ pairs.length) ||
    decide ((pairs.map Prod.snd).dedup.length ≠ pairs.length)

/-- contract.hpp 255-264 `find_in_contract_names<0>` -/
def findPair1 [DecidableEq ν] (pairs : List (ν × ν)) (n : ν) : Option (ν × ν) :=
  pairs.find? fun c => decide (c.1 = n)

/-- contract.hpp 255-264 `find_in_contract_names<1>` -/
def findPair2 [DecidableEq ν] (pairs : List (ν × ν)) (n : ν) : Option (ν × ν) :=
  pairs.find? fun c => decide (c.2 = n)

/-- Which side the common edges go to in both tensors and their order. -/
structure Scheme (ν : Type) where
  /-- `put_common_1_right` -/
  right1 : Bool
  /-- `put_common_2_right` -/
  right2 : Bool
  /-- `common_name_1` and `common_name_2` -/
  common : List (ν × ν)
deriving DecidableEq, Repr

/-- contract.hpp 413-420, 682-690 `fit_tensor_1_common_edge` -/
def fit1 [DecidableEq ν] (pairs : List (ν × ν)) (names1 : List ν) : List (ν × ν) :=
  names1.filterMap (findPair1 pairs)

/-- contract.hpp 421-428, 691-699 `fit_tensor_2_common_edge` -/
def fit2 [DecidableEq ν] (pairs : List (ν × ν)) (names2 : List ν) : List (ν × ν) :=
  names2.filterMap (findPair2 pairs)

/-- `l.empty() || l.back() == names.back()` -/
def endsLike [DecidableEq ν] (l names : List ν) : Bool :=
  l.isEmpty || decide (l.getLast? = names.getLast?)

/-- contract.hpp 430-452, 701-723 -/
def scheme [DecidableEq ν] (pairs : List (ν × ν)) (names1 names2 free1 free2 : List ν) : Scheme ν :=
  if free1.isEmpty then
    ⟨true, endsLike ((fit2 pairs names2).map Prod.snd) names2, fit2 pairs names2⟩
  else if free2.isEmpty then
    ⟨endsLike ((fit1 pairs names1).map Prod.fst) names1, true, fit1 pairs names1⟩
  else if free1.getLast? ≠ names1.getLast? then
    ⟨true, endsLike ((fit1 pairs names1).map Prod.snd) names2, fit1 pairs names1⟩
  else if free2.getLast? ≠ names2.getLast? then
    ⟨endsLike ((fit2 pairs names2).map Prod.fst) names1, true, fit2 pairs names2⟩
  else ⟨false, false, fit2 pairs names2⟩

/-- `tensor.core->edges[tensor.name_to_index.at(name)]` -/
def edgeAt [LinearOrder ν] (t : Tensor ν σ α) (n : ν) : Outcome (Edge σ) :=
  match OMap.find? (nameToIndex t.names) n with
  | none => .error "map::at"
  | some i =>
    match t.core.edges[i]? with
    | none => .ub
    | some e => .ok e

/-! ## contract_without_fuse -/

/-- contract.hpp 472-485: one symmetry of an edge to contract. -/
def deleteStep [TatSym σ] (other : Edge σ) (m : List (σ × ℕ)) (x : σ × ℕ) :
    Outcome (List (σ × ℕ)) :=
  match OMap.find? other.map (-x.1) with
  | some d => if d ≠ x.2 then .error "Different Dimension to Contract" else .ok m
  | none => .ok (OMap.set m x.1 0)

/-- contract.hpp 462-489 `delete_unused_dimension` -/
def deleteUnused [LinearOrder ν] [TatSym σ] (this other : Edge σ) (name : ν)
    (del : List (ν × List (σ × ℕ))) : Outcome (List (ν × List (σ × ℕ))) :=
  if TatSym.isFermi σ && decide (this.arrow = other.arrow) then
    .error "Different Fermi Arrow to Contract"
  else
    (this.map.foldlM (deleteStep other) []).bind fun m =>
    .ok (if m.isEmpty then del else OMap.set del name m)

/-- contract.hpp 457-491: one contracted pair. -/
def deletePair [LinearOrder ν] [TatSym σ] (t1 t2 : Tensor ν σ α)
    (del : List (ν × List (σ × ℕ)) × List (ν × List (σ × ℕ))) (c : ν × ν) :
    Outcome (List (ν × List (σ × ℕ)) × List (ν × List (σ × ℕ))) :=
  (edgeAt t1 c.1).bind fun e1 =>
  (edgeAt t2 c.2).bind fun e2 =>
  (deleteUnused e1 e2 c.1 del.1).bind fun d1 =>
  (deleteUnused e2 e1 c.2 del.2).bind fun d2 =>
  .ok (d1, d2)

/-- contract.hpp 352-377, 383-408: the names to reverse when merging: free edges pointing out,
contracted ones pointing in (first tensor, `out = false`) or out (second, `out = true`). -/
def reversedNames [DecidableEq ν] [TatSym σ] (free : List ν) (out : Bool) (t : Tensor ν σ α) :
    List ν :=
  if TatSym.isFermi σ then
    ((t.names.zip t.core.edges).filter fun x =>
      if x.1 ∈ free then x.2.arrow else decide (x.2.arrow = out)).map Prod.fst
  else []

/-- contract.hpp 362-367, 393-398: the free names to reverse back at the end. -/
def reversedFree [DecidableEq ν] [TatSym σ] (free : List ν) (t : Tensor ν σ α) : List ν :=
  if TatSym.isFermi σ then
    ((t.names.zip t.core.edges).filter fun x => decide (x.1 ∈ free) && x.2.arrow).map Prod.fst
  else []

/-- contract.hpp 359, 390: the free edges for the split at the end. -/
def splitParts [DecidableEq ν] (free : List ν) (t : Tensor ν σ α) : List (ν × List (σ × ℕ)) :=
  ((t.names.zip t.core.edges).filter fun x => decide (x.1 ∈ free)).map fun x => (x.1, x.2.map)

/-- contract.hpp 496-507: arguments for merging the first tensor. -/
def mergeArgs1 [LinearOrder ν] (cn : ContractNames ν) (reversed free common : List ν) (right : Bool)
    (cut : List (ν × List (σ × ℕ))) : EdgeArgs ν σ where
  reversed := reversed
  merge := OMap.ofList [(cn.c1, free), (cn.c2, common)]
  newNames := if right then [cn.c1, cn.c2] else [cn.c2, cn.c1]
  applyParity := false
  excludeReverse := common
  excludeMerge := [cn.c2]
  cut := cut

/-- contract.hpp 508-518: arguments for merging the second tensor. -/
def mergeArgs2 [LinearOrder ν] (cn : ContractNames ν) (reversed free common : List ν) (right : Bool)
    (cut : List (ν × List (σ × ℕ))) : EdgeArgs ν σ where
  reversed := reversed
  merge := OMap.ofList [(cn.c2, free), (cn.c1, common)]
  newNames := if right then [cn.c2, cn.c1] else [cn.c1, cn.c2]
  applyParity := false
  cut := cut

/-- contract.hpp 536-575: the arguments of `gemm` for one block of the product. -/
def productJob [Zero α] [One α] [Neg α] [TatSym σ] (right1 right2 : Bool) (edge0 edge1 common : Edge σ)
    (blocks1 blocks2 : List (List σ × List α)) (key : List σ) : Outcome (Job σ α) :=
  match key with
  | [s0, s1] =>
    match OMap.find? blocks1 (if right1 then [s0, s1] else [s1, s0]),
        OMap.find? blocks2 (if right2 then [s1, s0] else [s0, s1]) with
    | some data1, some data2 =>
      match OMap.find? edge0.map s0, OMap.find? edge1.map s1, OMap.find? common.map s1 with
      | some m, some n, some k =>
        .ok {
          key := key
          offset := 0
          ta := right2
          tb := !right1
          m := n
          n := m
          k := k
          alpha := if TatSym.isFermi σ && (right2 ^^ !right1) && oddInt (TatSym.fermi s0)
            then -1 else 1
          a := data2
          lda := if right2 then k else n
          b := data1
          ldb := if right1 then k else m
          beta := 0
          ldc := n }
      | _, _, _ => .error "map::at"
    | _, _ => .error "map::at"
  | _ => .ub

/-- contract.hpp 535-580: the loop over the blocks of the product; blocks with nothing to sum are
filled with zero. -/
def productPass [Zero α] (job : List σ → Outcome (Job σ α)) :
    List (List σ × List α) → Outcome (List (List σ × List α) × List (Job σ α))
  | [] => .ok ([], [])
  | b :: rest =>
    (job b.1).bind fun j =>
    (productPass job rest).bind fun r =>
    if j.m ≠ 0 ∧ j.n ≠ 0 ∧ j.k ≠ 0 then .ok (b :: r.1, j :: r.2)
    else if j.m ≠ 0 ∧ j.n ≠ 0 then .ok ((b.1, b.2.map fun _ => 0) :: r.1, r.2)
    else .ok (b :: r.1, r.2)

/-- contract.hpp 519-598: the product of the merged tensors. -/
def contractProduct [Zero α] [One α] [Neg α] [LinearOrder ν] [TatSym σ] (gemm : Gemm α)
    (junk : List σ → ℕ → α) (cn : ContractNames ν) (right1 right2 : Bool) (m1 m2 : Tensor ν σ α) :
    Outcome (Tensor ν σ α) :=
  let edge1 := m1.core.edges.getD (if right1 then 0 else 1) {}
  let edge2 := m2.core.edges.getD (if right2 then 0 else 1) {}
  let common := m1.core.edges.getD (if right1 then 1 else 0) {}
  (mkTensor junk [cn.c1, cn.c2] [edge1, edge2]).bind fun p =>
  (productPass (productJob right1 right2 (p.core.edges.getD 0 {}) (p.core.edges.getD 1 {}) common
    m1.core.blocks m2.core.blocks) p.core.blocks).bind fun r =>
  (gemmBatch gemm r.2 r.1).bind fun blocks =>
  .ok ⟨p.names, ⟨p.core.edges, blocks⟩⟩

/-- contract.hpp 296-589 `contract_without_fuse` for symmetric tensors (the branches
`is_no_symmetry` in it are never used, see `contract`).  The three environments belong to the three
calls of `edge_operator`, `junk` to the product. -/
def contractWithoutFuse [Zero α] [One α] [Neg α] [LinearOrder ν] [TatSym σ] (gemm : Gemm α)
    (env1 env2 env3 : Env σ α) (junk : List σ → ℕ → α) (cn : ContractNames ν)
    (t1 t2 : Tensor ν σ α) (pairs : List (ν × ν)) : Outcome (Tensor ν σ α) :=
  let cs := keepPairs t1.names t2.names pairs
  if duplicated cs then .error "Duplicated Contract Name"
  else
  let free1 := t1.names.filter fun n => (findPair1 cs n).isNone
  let free2 := t2.names.filter fun n => (findPair2 cs n).isNone
  let sch := scheme cs t1.names t2.names free1 free2
  (sch.common.foldlM (deletePair t1 t2) ([], [])).bind fun del =>
  (edgeOperator env1 t1 (mergeArgs1 cn (reversedNames free1 false t1) free1
    (sch.common.map Prod.fst) sch.right1 del.1)).bind fun m1 =>
  (edgeOperator env2 t2 (mergeArgs2 cn (reversedNames free2 true t2) free2
    (sch.common.map Prod.snd) sch.right2 del.2)).bind fun m2 =>
  (contractProduct gemm junk cn sch.right1 sch.right2 m1 m2).bind fun p =>
  edgeOperator env3 p {
    split := OMap.ofList [(cn.c1, splitParts free1 t1), (cn.c2, splitParts free2 t2)]
    reversed := reversedFree free1 t1 ++ reversedFree free2 t2
    newNames := free1 ++ free2 }

/-! ## contract_with_fuse -/

/-- `map.begin()->second`, undefined for an empty map. -/
def firstValue {κ β : Type} : List (κ × β) → Outcome β
  | [] => .ub
  | x :: _ => .ok x.2

/-- contract.hpp 619-629: names in both tensors which are not contracted, as a `std::set`. -/
def fuseNames [LinearOrder ν] (cs : List (ν × ν)) (names1 names2 : List ν) : List ν :=
  OMap.keys (OMap.ofList ((names1.filter fun n => decide (n ∈ names2) &&
    !decide (n ∈ cs.map Prod.fst) && !decide (n ∈ cs.map Prod.snd)).map fun n => (n, ())))

/-- contract.hpp 640-649: the edge of a fused name. -/
def fuseEdge [LinearOrder ν] [TatSym σ] (t1 t2 : Tensor ν σ α) (n : ν) : Outcome (Edge σ) :=
  (edgeAt t1 n).bind fun e1 =>
  (edgeAt t2 n).bind fun e2 =>
  if edgeEq e1 e2 then .ok e1 else .error "Cannot fuse two edge with different shape"

/-- contract.hpp 651-664, 667-680: free names and their edges. -/
def freeEdges [DecidableEq ν] (free : List ν) (t : Tensor ν σ α) : List (Edge σ) :=
  ((t.names.zip t.core.edges).filter fun x => decide (x.1 ∈ free)).map Prod.snd

/-- contract.hpp 725-743: arguments for merging; `free` and `common` are the internal names of the
free and the common edges. -/
def fuseArgs [LinearOrder ν] (fuse free common : ν × List ν) (right : Bool) : EdgeArgs ν σ where
  merge := OMap.ofList [free, common, fuse]
  newNames := if right then [fuse.1, free.1, common.1] else [fuse.1, common.1, free.1]

/-- contract.hpp 766-795: the arguments of `gemm` for the `i`-th matrix. -/
def fuseJob [Zero α] [One α] (right1 right2 : Bool) (key : List σ) (data1 data2 : List α)
    (m n k i : ℕ) : Job σ α where
  key := key
  offset := m * n * i
  ta := right2
  tb := !right1
  m := n
  n := m
  k := k
  alpha := 1
  a := data2.drop (k * n * i)
  lda := if right2 then k else n
  b := data1.drop (m * k * i)
  ldb := if right1 then k else m
  beta := 0
  ldc := n

/-- contract.hpp 744-797: the product of the merged tensors, the data of its only block. -/
def fuseProduct [Zero α] [One α] [LinearOrder ν] [TatSym σ] (gemm : Gemm α)
    (junk : List σ → ℕ → α) (cn : ContractNames ν) (right1 right2 : Bool) (m1 m2 : Tensor ν σ α) :
    Outcome (List α) :=
  let edge0 := m1.core.edges.getD 0 {}
  let edge1 := m1.core.edges.getD (if right1 then 1 else 2) {}
  let edge2 := m2.core.edges.getD (if right2 then 1 else 2) {}
  let common := m1.core.edges.getD (if right1 then 2 else 1) {}
  (mkTensor junk [cn.c0, cn.c1, cn.c2] [edge0, edge1, edge2]).bind fun p =>
  (firstValue (p.core.edges.getD 0 {}).map).bind fun l =>
  (firstValue (p.core.edges.getD 1 {}).map).bind fun m =>
  (firstValue (p.core.edges.getD 2 {}).map).bind fun n =>
  (firstValue common.map).bind fun k =>
  (firstValue m1.core.blocks).bind fun data1 =>
  (firstValue m2.core.blocks).bind fun data2 =>
  match p.core.blocks with
  | [] => .ub
  | b :: _ =>
    if m ≠ 0 ∧ n ≠ 0 ∧ k ≠ 0 then
      (gemmBatch gemm ((List.range l).map (fuseJob right1 right2 b.1 data1 data2 m n k))
        p.core.blocks).bind firstValue
    else if m ≠ 0 ∧ n ≠ 0 then .ok (b.2.map fun _ => 0)
    else .ok b.2

/-- contract.hpp 591-801 `contract_with_fuse` -/
def contractWithFuse [Zero α] [One α] [Neg α] [LinearOrder ν] [TatSym σ] (gemm : Gemm α)
    (env1 env2 : Env σ α) (junk junk' : List σ → ℕ → α) (cn : ContractNames ν)
    (t1 t2 : Tensor ν σ α) (pairs : List (ν × ν)) : Outcome (Tensor ν σ α) :=
  let cs := keepPairs t1.names t2.names pairs
  if duplicated cs then .error "Duplicated Contract Name"
  else
  let fuse := fuseNames cs t1.names t2.names
  (fuse.mapM (fuseEdge t1 t2)).bind fun fuseE =>
  let free1 := t1.names.filter fun n => (findPair1 cs n).isNone && !decide (n ∈ fuse)
  let free2 := t2.names.filter fun n => (findPair2 cs n).isNone && !decide (n ∈ fuse)
  let sch := scheme cs t1.names t2.names free1 free2
  (edgeOperator env1 t1 (fuseArgs (cn.c0, fuse) (cn.c1, free1) (cn.c2, sch.common.map Prod.fst)
    sch.right1)).bind fun m1 =>
  (edgeOperator env2 t2 (fuseArgs (cn.c0, fuse) (cn.c2, free2) (cn.c1, sch.common.map Prod.snd)
    sch.right2)).bind fun m2 =>
  (fuseProduct gemm junk cn sch.right1 sch.right2 m1 m2).bind fun data =>
  (mkTensor junk' (fuse ++ free1 ++ free2)
    (fuseE ++ freeEdges free1 t1 ++ freeEdges free2 t2)).bind fun r =>
  match r.core.blocks with
  | [] => .ub
  | b :: rest => .ok ⟨r.names, ⟨r.core.edges, (b.1, data) :: rest⟩⟩

/-- The surroundings of one call of `contract`. -/
structure ContractEnv (σ α : Type) where
  gemm : Gemm α
  env1 : Env σ α
  env2 : Env σ α
  env3 : Env σ α
  junk : List σ → ℕ → α
  junk' : List σ → ℕ → α

/-- contract.hpp 281-294 `contract`; the pairs are a `std::set`. -/
def contract [Zero α] [One α] [Neg α] [LinearOrder ν] [TatSym σ] (ce : ContractEnv σ α)
    (cn : ContractNames ν) (t1 t2 : Tensor ν σ α) (pairs : List (ν × ν)) :
    Outcome (Tensor ν σ α) :=
  if TatSym.isNoSym σ then
    contractWithFuse ce.gemm ce.env1 ce.env2 ce.junk ce.junk' cn t1 t2 pairs
  else contractWithoutFuse ce.gemm ce.env1 ce.env2 ce.env3 ce.junk cn t1 t2 pairs

/-- tensor.hpp 591-599 `contract_all_edge` -/
def contractAllEdge [Zero α] [One α] [Neg α] [LinearOrder ν] [TatSym σ] (ce : ContractEnv σ α)
    (cn : ContractNames ν) (t1 t2 : Tensor ν σ α) : Outcome (Tensor ν σ α) :=
  contract ce cn t1 t2
    ((OMap.keys (OMap.ofList (t1.names.map fun n => (n, ())))).map fun n => (n, n))

end TAT
