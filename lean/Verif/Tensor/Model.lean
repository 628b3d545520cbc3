import Verif.Core.Model

/-!
# Model of `include/TAT/tensor.hpp` (construction, element maps, norms),
`include/TAT/name.hpp` 245-269 and `include/TAT/get_item.hpp`

Names are an arbitrary linearly ordered type `ν` (`FastName` is ordered by its id, `std::string`
lexicographically).  `Tensor::name_to_index` is not stored: the code always builds it from `names`
with `construct_name_to_index`, here the function `nameToIndex`.  The shared ownership of `core` is
modelled separately (`Verif/Cow`), here a tensor is a value.
-/

namespace TAT

variable {ν σ α : Type}

/-- tensor.hpp 122-148 `Tensor<ScalarType, Symmetry, Name>`. -/
structure Tensor (ν σ α : Type) where
  names : List ν
  core : Core σ α
deriving DecidableEq, Repr

/-- name.hpp 248-249: `result[names[i]] = i`. -/
def indexStep [LinearOrder ν] (names : List ν) (m : List (ν × ℕ)) (i : ℕ) : List (ν × ℕ) :=
  match names[i]? with
  | none => m
  | some n => OMap.set m n i

/-- name.hpp 245-252 `construct_name_to_index`. -/
def nameToIndex [LinearOrder ν] (names : List ν) : List (ν × ℕ) :=
  (List.range names.length).foldl (indexStep names) []

/-- name.hpp 254-269 `check_valid_name`. -/
def checkValidName [DecidableEq ν] (names : List ν) (rank : ℕ) : Outcome Unit :=
  if names.length ≠ rank then
    .error "Wrong name list length which no equals to expected length"
  else if (List.range rank).any (fun i =>
      (List.range' (i + 1) (rank - (i + 1))).any (fun j => decide (names[i]? = names[j]?))) then
    .error "Duplicated names in name list"
  else .ok ()

/-- tensor.hpp 161-167: the constructor from names and edges. -/
def mkTensor [DecidableEq ν] [TatSym σ] (junk : List σ → ℕ → α) (names : List ν)
    (edges : List (Edge σ)) (autoReverse : Bool := false) : Outcome (Tensor ν σ α) :=
  (newCore junk edges autoReverse).bind fun core =>
  (checkValidName names core.edges.length).bind fun _ =>
  .ok ⟨names, core⟩

/-! ## get_item.hpp -/

/-- get_item.hpp 59-64, 88-93: the Horner loop over dimensions and indices. -/
def horner (dimensions scalarPosition : List ℕ) : ℕ :=
  (List.range dimensions.length).foldl (fun offset j =>
    offset * dimensions.getD j 0 + scalarPosition.getD j 0) 0

/-- get_item.hpp 29-42 `get_block_for_get_item`. -/
def getBlock [LinearOrder ν] (position : List (ν × σ)) : List ν → Outcome (List σ)
  | [] => .ok []
  | n :: ns =>
    match OMap.find? position n with
    | none => .error "Name not found in position map when finding block"
    | some s => (getBlock position ns).bind fun rest => .ok (s :: rest)

/-- get_item.hpp 44-58: the loop of `get_offset_for_get_item` (no symmetry).  An edge without any
entry makes `map.begin()->second` undefined. -/
def getOffsetLoop [LinearOrder ν] (position : List (ν × (σ × ℕ))) :
    List ν → List (Edge σ) → Outcome (List ℕ × List ℕ)
  | [], _ => .ok ([], [])
  | n :: ns, es =>
    match OMap.find? position n with
    | none => .error "Name not found in position map when finding offset"
    | some p =>
      match es with
      | [] => .ub
      | e :: es =>
        match e.map with
        | [] => .ub
        | m :: _ =>
          (getOffsetLoop position ns es).bind fun r => .ok (p.2 :: r.1, m.2 :: r.2)

/-- get_item.hpp 67-87: the loop of `get_block_and_offset_for_get_item`. -/
def getBlockAndOffsetLoop [LinearOrder ν] [TatSym σ] (position : List (ν × (σ × ℕ))) :
    List ν → List (Edge σ) → Outcome (List σ × List ℕ × List ℕ)
  | _, [] => .ok ([], [], [])
  | [], _ :: _ => .ub
  | n :: ns, e :: es =>
    match OMap.find? position n with
    | none => .error "Name not found in position map when finding block and offset"
    | some p =>
      match OMap.find? e.map p.1 with
      | none => .error "map::at"
      | some d =>
        (getBlockAndOffsetLoop position ns es).bind fun r =>
        .ok (p.1 :: r.1, p.2 :: r.2.1, d :: r.2.2)

/-- The address computed by `const_at` and `at` (get_item.hpp 124-151): the block and the offset in
it.  Without symmetry it is the first block, and undefined if there is none. -/
def address [LinearOrder ν] [TatSym σ] (t : Tensor ν σ α) (position : List (ν × (σ × ℕ))) :
    Outcome (List σ × ℕ) :=
  if TatSym.isNoSym σ then
    (getOffsetLoop position t.names t.core.edges).bind fun r =>
    match t.core.blocks with
    | [] => .ub
    | b :: _ => .ok (b.1, horner r.2 r.1)
  else
    (getBlockAndOffsetLoop position t.names t.core.edges).bind fun r =>
    match OMap.find? t.core.blocks r.1 with
    | none => .error "map::at"
    | some _ => .ok (r.1, horner r.2.2 r.2.1)

/-- get_item.hpp 121-132 `const_at`: read one element.  An offset beyond the block is undefined. -/
def constAt [LinearOrder ν] [TatSym σ] (t : Tensor ν σ α) (position : List (ν × (σ × ℕ))) :
    Outcome α :=
  (address t position).bind fun a =>
  match OMap.find? t.core.blocks a.1 with
  | none => .error "map::at"
  | some data =>
    match data[a.2]? with
    | none => .ub
    | some v => .ok v

/-- get_item.hpp 134-151 `at(position) = value`: write one element. -/
def atWrite [LinearOrder ν] [TatSym σ] (t : Tensor ν σ α) (position : List (ν × (σ × ℕ)))
    (value : α) : Outcome (Tensor ν σ α) :=
  (address t position).bind fun a =>
  match OMap.find? t.core.blocks a.1 with
  | none => .error "map::at"
  | some data =>
    if a.2 < data.length then
      .ok { t with core := { t.core with
        blocks := OMap.set t.core.blocks a.1 (data.set a.2 value) } }
    else .ub

/-! ## element maps -/

/-- tensor.hpp 263-265 `same_shape`. -/
def sameShape [DecidableEq ν] [TatSym σ] {β : Type} (junk : List σ → ℕ → β) (t : Tensor ν σ α) :
    Outcome (Tensor ν σ β) := mkTensor junk t.names t.core.edges

/-- `std::transform(source.begin(), source.end(), destination.begin(), function)`: undefined when
the destination is shorter. -/
def stdTransform {β : Type} (f : α → β) (source : List α) (destination : List β) :
    Outcome (List β) :=
  if destination.length < source.length then .ub
  else .ok (source.map f ++ destination.drop source.length)

/-- tensor.hpp 276-278: the loop body of `map` for one source block. -/
def mapBlock [TatSym σ] {β : Type} (f : α → β) (blocks : List (List σ × List β))
    (b : List σ × List α) : Outcome (List (List σ × List β)) :=
  match OMap.find? blocks b.1 with
  | none => .error "map::at"
  | some destination =>
    (stdTransform f b.2 destination).bind fun d => .ok (OMap.set blocks b.1 d)

/-- tensor.hpp 273-280 `map`. -/
def tensorMap [DecidableEq ν] [TatSym σ] {β : Type} (junk : List σ → ℕ → β) (f : α → β)
    (t : Tensor ν σ α) : Outcome (Tensor ν σ β) :=
  (sameShape junk t).bind fun result =>
  (t.core.blocks.foldlM (mapBlock f) result.core.blocks).bind fun blocks =>
  .ok { result with core := { result.core with blocks := blocks } }

/-- tensor.hpp 283-296 `transform` (on the tensor's own core). -/
def transform (f : α → α) (t : Tensor ν σ α) : Tensor ν σ α :=
  { t with core := { t.core with blocks := t.core.blocks.map fun b => (b.1, b.2.map f) } }

/-- Run a stateful generator over a list of elements, in order. -/
def genList {S : Type} (gen : S → α × S) : List α → S → List α × S
  | [], s => ([], s)
  | _ :: l, s =>
    let (v, s1) := gen s
    let (vs, s2) := genList gen l s1
    (v :: vs, s2)

/-- Run a stateful generator over all blocks, in order. -/
def genBlocks {S : Type} (gen : S → α × S) : List (List σ × List α) → S → List (List σ × List α) × S
  | [], s => ([], s)
  | b :: bs, s =>
    let (d, s1) := genList gen b.2 s
    let (r, s2) := genBlocks gen bs s1
    ((b.1, d) :: r, s2)

/-- tensor.hpp 303-316 `set(generator)`; the generator carries the state `S`. -/
def setWith {S : Type} (gen : S → α × S) (s : S) (t : Tensor ν σ α) : Tensor ν σ α :=
  { t with core := { t.core with blocks := (genBlocks gen t.core.blocks s).1 } }

/-- tensor.hpp 318-328 `zero`. -/
def zero [Zero α] (t : Tensor ν σ α) : Tensor ν σ α := setWith (fun (_ : Unit) => (0, ())) () t

/-- tensor.hpp 335-346 `test(first, step)`. -/
def testFill [Add α] (first step : α) (t : Tensor ν σ α) : Tensor ν σ α :=
  setWith (fun x => (x, x + step)) first t

/-- tensor.hpp 381-409 `to<OtherScalarType>` for different scalar types; `convert` is the scalar
conversion.  `blocks.emplace` into an empty map. -/
def convertTo [TatSym σ] {β : Type} (convert : α → β) (t : Tensor ν σ α) : Tensor ν σ β :=
  ⟨t.names, ⟨t.core.edges,
    t.core.blocks.foldl (fun m b => OMap.emplace m b.1 (b.2.map convert)) []⟩⟩

/-! ## norms (tensor.hpp 416-450) -/

/-- `norm<-1>`: running maximum of the moduli, starting from 0. -/
def normMax {ρ : Type} [Zero ρ] [LT ρ] [DecidableRel (· < · : ρ → ρ → Prop)] (abs : α → ρ)
    (t : Tensor ν σ α) : ρ :=
  t.core.blocks.foldl (fun result b =>
    b.2.foldl (fun result number => if result < abs number then abs number else result) result) 0

/-- `norm<0>`: number of elements. -/
def normCount {ρ : Type} [Zero ρ] [Add ρ] (ofNat : ℕ → ρ) (t : Tensor ν σ α) : ρ :=
  t.core.blocks.foldl (fun result b => result + ofNat b.2.length) 0

/-- `norm<p>` for other `p`: `term` is `std::abs`, `std::norm` or `std::pow(std::abs(.), p)`, and
`root` is `std::pow(., 1. / p)`. -/
def normSum {ρ : Type} [Zero ρ] [Add ρ] (term : α → ρ) (root : ρ → ρ) (t : Tensor ν σ α) : ρ :=
  root (t.core.blocks.foldl (fun result b =>
    b.2.foldl (fun result number => result + term number) result) 0)

end TAT
