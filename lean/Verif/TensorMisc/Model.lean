import Verif.Tensor.Blocks
import Verif.EdgeOp.Model

/-!
# Model of `include/TAT/tensor_miscellaneous.hpp`

`TAT_USE_SINGULAR_MATRIX` is not modelled: singular values are the table `Singular::value`.
-/

namespace TAT

variable {ν σ α β : Type}

/-- `*p = v` at an offset into a data vector; outside of the vector it is undefined. -/
def writeAt (dst : List α) (i : ℕ) (v : α) : Outcome (List α) :=
  if i < dst.length then .ok (dst.set i v) else .ub

/-- `core->edges[i].map.at(symmetries[i])` for all edges. -/
def edgeDims [TatSym σ] : List (Edge σ) → List σ → Outcome (List ℕ)
  | [], _ => .ok []
  | _ :: _, [] => .ub
  | e :: es, s :: ss =>
    match OMap.find? e.map s with
    | none => .error "map::at"
    | some d => (edgeDims es ss).bind fun ds => .ok (d :: ds)

/-! ## multiple (30-123) -/

/-- 38-42: one element; `mulS` is the product of a scalar with a singular value. -/
def multipleElem (mulS : α → β → α) (src : List α) (v : β) (dst : List α) (i : ℕ) :
    Outcome (List α) :=
  match src[i]? with
  | none => .ub
  | some x => writeAt dst i (mulS x v)

/-- 30-47 `multiple_kernel`; the dispatch of `n` to constants keeps its value (C47). -/
def multipleKernel (mulS : α → β → α) (m k n : ℕ) (src : List α) (S : List β) (dst : List α) :
    Outcome (List α) :=
  (List.range m).foldlM (fun dst a =>
    (List.range k).foldlM (fun dst b =>
      match S[b]? with
      | none => .ub
      | some v =>
        (List.range n).foldlM (fun dst c => multipleElem mulS src v dst ((a * k + b) * n + c)) dst)
      dst) dst

/-- 69-121: one block.  `inv` is `ScalarTypeS(1) / ·`. -/
def multipleBlock [TatSym σ] (mulS : α → β → α) (inv : β → β) (S : List (σ × List β))
    (index : ℕ) (different division : Bool) (edges : List (Edge σ)) (k : List σ) (src dst : List α) :
    Outcome (List α) :=
  match k[index]? with
  | none => .ub
  | some s =>
    match OMap.find? S (if different then -s else s) with
    | none => .error "map::at"
    | some v =>
      (edgeDims edges k).bind fun dims =>
      if v.length ≠ dims.getD index 0 then
        .error "Vector Size incompatible in Multiple with a tensor"
      else
        multipleKernel mulS (dims.take index).prod (dims.getD index 0) (dims.drop (index + 1)).prod
          src (if division then v.map inv else v) dst

/-- 49-123 `multiple`. -/
def multiple [LinearOrder ν] [TatSym σ] (junk : List σ → ℕ → α) (mulS : α → β → α) (inv : β → β)
    (t : Tensor ν σ α) (S : List (σ × List β)) (name : ν) (direction : Char) (division : Bool) :
    Outcome (Tensor ν σ α) :=
  let run (different : Bool) : Outcome (Tensor ν σ α) :=
    match OMap.find? (nameToIndex t.names) name with
    | none => .ok t
    | some index =>
      (sameShape junk t).bind fun r =>
      (forBlocks id (multipleBlock mulS inv S index different division t.core.edges)
        t.core.blocks r.core.blocks).bind fun blocks =>
      .ok ⟨r.names, ⟨r.core.edges, blocks⟩⟩
  if direction = 'u' ∨ direction = 'U' then run false
  else if direction = 'v' ∨ direction = 'V' then run true
  else .error "Direction invalid in multiple"

/-! ## conjugate (127-183) -/

/-- 137-144: one edge.  Bosonic edges have no arrow, their field is copied along. -/
def conjEdge [TatSym σ] (e : Edge σ) : Edge σ :=
  ⟨if TatSym.isFermi σ then !e.arrow else e.arrow,
    e.map.foldl (fun m x => OMap.set m (-x.1) x.2) []⟩

/-- 156-181: one block. -/
def conjBlock [TatSym σ] [Neg α] (conj : α → α) (rank : ℕ) (k : List σ) (src dst : List α) :
    Outcome (List α) :=
  let parity := TatSym.isFermi σ &&
    getSplitMergeParity (k.map TatSym.fermi) (List.replicate rank 0) [true]
  stdTransform (fun x => signed parity (conj x)) src dst

/-- 127-183 `conjugate`; `conj` is `std::conj` for complex scalars and the identity for real ones
(`isReal`). -/
def conjugate [LinearOrder ν] [TatSym σ] [Neg α] (junk : List σ → ℕ → α) (conj : α → α)
    (isReal : Bool) (t : Tensor ν σ α) : Outcome (Tensor ν σ α) :=
  if TatSym.isNoSym σ && isReal then .ok t
  else
    (mkTensor junk t.names (t.core.edges.map conjEdge)).bind fun r =>
    (forBlocks (fun k => k.map Neg.neg) (conjBlock conj t.names.length)
      t.core.blocks r.core.blocks).bind fun blocks =>
    .ok ⟨r.names, ⟨r.core.edges, blocks⟩⟩

/-! ## identity (187-268) -/

/-- 187-209 `set_to_identity`: the odometer of `tensor_transpose_kernel` with a single pointer (here
both offsets of the cursor are that pointer).  With rank 0 the code writes `current_index[-1]`. -/
def setToIdentity [One α] (data : List α) (dims leading : List ℕ) (rank : ℕ) : Outcome (List α) :=
  if rank = 0 then .ub
  else
    kernelLoop (fun _ pointer dst => writeAt dst pointer 1)
      (fun c => kernelCarry dims leading leading (rank - 1) (c.bump leading leading (rank - 1)))
      dims.prod ⟨List.replicate rank 0, 0, 0⟩ data

/-- 226-235: the name paired with a given one, by the first pair in which it occurs. -/
def partnerIn [DecidableEq ν] (pairs : List (ν × ν)) (n : ν) : Option ν :=
  match pairs with
  | [] => none
  | (a, b) :: rest => if a = n then some b else if b = n then some a else partnerIn rest n

/-- 222-241: one round; the state is `valid_index` and `ordered_pair_index`. -/
def identityStep [LinearOrder ν] (names : List ν) (pairs : List (ν × ν))
    (st : List Bool × List (ℕ × ℕ)) (i : ℕ) : Outcome (List Bool × List (ℕ × ℕ)) :=
  if st.1.getD i false then
    match names[i]? with
    | none => .ub
    | some n =>
      match partnerIn pairs n with
      | none => .ub
      | some n' =>
        match OMap.find? (nameToIndex names) n' with
        | none => .error "map::at"
        | some j => .ok (st.1.set j false, st.2 ++ [(i, j)])
  else .ok st

/-- 221-242: the ordered pairs of positions. -/
def identityPairs [LinearOrder ν] (names : List ν) (pairs : List (ν × ν)) :
    Outcome (List (ℕ × ℕ)) :=
  ((List.range names.length).foldlM (identityStep names pairs)
    (List.replicate names.length true, [])).bind fun st => .ok st.2

/-- 246-267: one block (248-256 is the same computation of leadings as in edge_operator.hpp). -/
def identityBlock [TatSym σ] [One α] (edges : List (Edge σ)) (rank : ℕ) (pairIndex : List (ℕ × ℕ))
    (c : List σ × List α) : Outcome (List σ × List α) :=
  (edgeDims edges c.1).bind fun dims =>
  let leading := leadingsOf dims
  -- `ordered_pair_index[i]` is read for all i < half_rank
  if pairIndex.length < rank / 2 then .ub
  else
    let used := pairIndex.take (rank / 2)
    (setToIdentity c.2 (used.map fun x => dims.getD x.1 0)
      (used.map fun x => leading.getD x.1 0 + leading.getD x.2 0) (rank / 2)).bind fun d =>
    .ok (c.1, d)

/-- 211-268 `identity`. -/
def identity [LinearOrder ν] [TatSym σ] [Zero α] [One α] (junk : List σ → ℕ → α)
    (t : Tensor ν σ α) (pairs : List (ν × ν)) : Outcome (Tensor ν σ α) :=
  (identityPairs t.names pairs).bind fun pairIndex =>
  (sameShape junk t).bind fun r =>
  ((zero r).core.blocks.mapM (identityBlock t.core.edges t.names.length pairIndex)).bind
    fun blocks =>
  .ok ⟨r.names, ⟨r.core.edges, blocks⟩⟩

end TAT
