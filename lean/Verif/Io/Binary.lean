import Verif.Tensor.Model
import Verif.Name.Model

/-!
# Binary input and output: `include/TAT/io.hpp` 99-108, 141-200, 251-287, 344-368, 564-683

A stream is the list of its bytes; writing appends, reading removes from the front.  Numbers are written
as they are in memory (little endian).  Padding bytes of a structure have no definite value: the byte
written at position `i` of the stream is `pad i` for an arbitrary `pad`.  Reading beyond the end of the
stream leaves variables uninitialised that are used afterwards, which is outcome `ub`.
-/

namespace TAT

variable {ν σ α : Type}

/-- A byte of a stream. -/
abbrev Byte := BitVec 8

/-- The memory of an unsigned number of `n` bytes. -/
def bytesOf : ℕ → ℕ → List Byte
  | 0, _ => []
  | n + 1, x => BitVec.ofNat 8 x :: bytesOf n (x / 256)

/-- The unsigned number in memory. -/
def ofBytes : List Byte → ℕ
  | [] => 0
  | b :: bs => b.toNat + 256 * ofBytes bs

/-- A type that is written as it is in memory: `sizeof(T)`, the bytes of an object (with padding bytes from
the given function, numbered from the start of the object) and the object of given bytes; a `bool` must be
0 or 1. -/
class BinData (τ : Type) where
  size : ℕ
  bytes : (ℕ → Byte) → τ → List Byte
  parse : List Byte → Outcome τ

/-- `bool` -/
instance : BinData Bool where
  size := 1
  bytes _ b := [if b then 1 else 0]
  parse l := match l with
    | [b] => if b = 0 then .ok false else if b = 1 then .ok true else .ub
    | _ => .ub

/-- Integers of `8 * n` bits. -/
def intData (n : ℕ) : BinData (BitVec (8 * n)) where
  size := n
  bytes _ b := bytesOf n b.toNat
  parse l := .ok (BitVec.ofNat _ (ofBytes l))

/-- `int16_t`, `int32_t`, `int64_t` -/
instance : BinData (BitVec 16) := intData 2
instance : BinData (BitVec 32) := intData 4
instance : BinData (BitVec 64) := intData 8
instance : BinData (BitVec 128) := intData 16

/-- symmetry.hpp 177-181: an empty structure has size one. -/
instance : BinData NoSymmetry where
  size := 1
  bytes pad _ := [pad 0]
  parse _ := .ok {}

/-- symmetry.hpp 197-205 -/
instance : BinData Z2Symmetry where
  size := 1
  bytes pad s := BinData.bytes pad s.z2
  parse l := (BinData.parse l : Outcome Bool).bind fun b => .ok ⟨b⟩

/-- symmetry.hpp 222-230 -/
instance : BinData U1Symmetry where
  size := 4
  bytes pad s := BinData.bytes pad s.u1
  parse l := (BinData.parse l : Outcome U1).bind fun b => .ok ⟨b⟩

/-- symmetry.hpp 247-255 -/
instance : BinData FermiSymmetry where
  size := 2
  bytes pad s := BinData.bytes pad s.fermi
  parse l := (BinData.parse l : Outcome Fermi).bind fun b => .ok ⟨b⟩

/-- symmetry.hpp 272-281: one byte of padding at the end. -/
instance : BinData FermiZ2Symmetry where
  size := 4
  bytes pad s := BinData.bytes pad s.fermi ++ BinData.bytes pad s.z2 ++ [pad 3]
  parse l := (BinData.parse (l.take 2) : Outcome Fermi).bind fun f =>
    (BinData.parse ((l.drop 2).take 1) : Outcome Bool).bind fun b => .ok ⟨f, b⟩

/-- symmetry.hpp 299-308: two bytes of padding in the middle. -/
instance : BinData FermiU1Symmetry where
  size := 8
  bytes pad s := BinData.bytes pad s.fermi ++ [pad 2, pad 3] ++ BinData.bytes pad s.u1
  parse l := (BinData.parse (l.take 2) : Outcome Fermi).bind fun f =>
    (BinData.parse (l.drop 4) : Outcome U1).bind fun u => .ok ⟨f, u⟩

/-- io.hpp 99-103: `out.write(&data, sizeof(T))`. -/
def putData {τ : Type} [BinData τ] (pad : ℕ → Byte) (out : List Byte) (x : τ) : List Byte :=
  out ++ BinData.bytes (fun i => pad (out.length + i)) x

/-- io.hpp 104-108: `in.read(&data, sizeof(T))`. -/
def getData {τ : Type} [BinData τ] (inp : List Byte) : Outcome (τ × List Byte) :=
  if inp.length < BinData.size τ then .ub
  else (BinData.parse (inp.take (BinData.size τ))).bind fun x => .ok (x, inp.drop (BinData.size τ))

/-- `Size` is `uint64_t`. -/
def putSize (out : List Byte) (n : ℕ) : List Byte := out ++ bytesOf 8 n

/-- Reading a `Size`. -/
def getSize (inp : List Byte) : Outcome (ℕ × List Byte) :=
  if inp.length < 8 then .ub else .ok (ofBytes (inp.take 8), inp.drop 8)

/-- io.hpp 258-265: the elements of a vector one after the other. -/
def putAll {τ : Type} (put : List Byte → τ → List Byte) (out : List Byte) (l : List τ) : List Byte :=
  l.foldl put out

/-- Reading a given number of elements. -/
def getAll {τ : Type} (get : List Byte → Outcome (τ × List Byte)) :
    ℕ → List Byte → Outcome (List τ × List Byte)
  | 0, inp => .ok ([], inp)
  | n + 1, inp => (get inp).bind fun r => (getAll get n r.2).bind fun q => .ok (r.1 :: q.1, q.2)

/-- io.hpp 251-267 `operator<` of vectors.  Trivial types are written in one piece, which is the same. -/
def putVector {τ : Type} (put : List Byte → τ → List Byte) (out : List Byte) (l : List τ) : List Byte :=
  putAll put (putSize out l.length) l

/-- io.hpp 268-287 `operator>` of vectors -/
def getVector {τ : Type} (get : List Byte → Outcome (τ × List Byte)) (inp : List Byte) :
    Outcome (List τ × List Byte) :=
  (getSize inp).bind fun r => getAll get r.1 r.2

/-- io.hpp 179-187 `operator<` of maps -/
def putMap {κ β : Type} (putKey : List Byte → κ → List Byte) (putVal : List Byte → β → List Byte)
    (out : List Byte) (m : List (κ × β)) : List Byte :=
  putAll (fun out e => putVal (putKey out e.1) e.2) (putSize out m.length) m

/-- io.hpp 194-198: one entry -/
def getEntry {κ β : Type} (getKey : List Byte → Outcome (κ × List Byte))
    (getVal : List Byte → Outcome (β × List Byte)) (inp : List Byte) : Outcome ((κ × β) × List Byte) :=
  (getKey inp).bind fun k => (getVal k.2).bind fun v => .ok ((k.1, v.1), v.2)

/-- io.hpp 189-200 `operator>` of maps: `in > map[key]`. -/
def getMap {κ β : Type} [LinearOrder κ] (getKey : List Byte → Outcome (κ × List Byte))
    (getVal : List Byte → Outcome (β × List Byte)) (inp : List Byte) :
    Outcome (List (κ × β) × List Byte) :=
  (getSize inp).bind fun r => (getAll (getEntry getKey getVal) r.1 r.2).bind fun q =>
    .ok (OMap.ofList q.1, q.2)

/-- io.hpp 344-355 `operator<` of edges -/
def putEdge [TatSym σ] [BinData σ] (pad : ℕ → Byte) (out : List Byte) (e : Edge σ) : List Byte :=
  if TatSym.isNoSym σ then
    match e.map with
    | [] => out
    | m :: _ => putSize out m.2
  else
    putMap (putData pad) putSize (if TatSym.isFermi σ then putData pad out e.arrow else out) e.map

/-- io.hpp 356-368 `operator>` of edges, into a new edge -/
def getEdge [TatSym σ] [BinData σ] (inp : List Byte) : Outcome (Edge σ × List Byte) :=
  if TatSym.isNoSym σ then (getSize inp).bind fun r => .ok (⟨false, [(0, r.1)]⟩, r.2)
  else if TatSym.isFermi σ then
    (getData inp : Outcome (Bool × List Byte)).bind fun a =>
      (getMap getData getSize a.2).bind fun m => .ok (⟨a.1, m.1⟩, m.2)
  else (getMap getData getSize inp).bind fun m => .ok (⟨false, m.1⟩, m.2)

/-- name.hpp 213-232 `NameTraits<Name>::write`, `read` -/
structure NameIO (ν : Type) where
  put : List Byte → ν → List Byte
  get : List Byte → Outcome (ν × List Byte)

/-- io.hpp 157-159: a `FastName` is its number, an `int`; numbers are not negative. -/
def fastNameIO : NameIO ℕ where
  put out n := out ++ bytesOf 4 n
  get inp := if inp.length < 4 then .ub else .ok (ofBytes (inp.take 4), inp.drop 4)

/-- io.hpp 141-146: a string -/
def putString (out : List Byte) (s : List Byte) : List Byte := putSize out s.length ++ s

/-- io.hpp 147-153 -/
def getString (inp : List Byte) : Outcome (List Byte × List Byte) :=
  (getSize inp).bind fun r => if r.2.length < r.1 then .ub else .ok (r.2.take r.1, r.2.drop r.1)

/-- io.hpp 164-166 -/
def stringNameIO : NameIO (List Byte) := ⟨putString, getString⟩

/-- io.hpp 564-579 `meta_put`, `data_put`, 581-585 `operator<`.  Without symmetry an edge without entry or
a tensor without block is undefined. -/
def putTensor [TatSym σ] [BinData σ] [BinData α] (io : NameIO ν) (pad : ℕ → Byte) (out : List Byte)
    (t : Tensor ν σ α) : Outcome (List Byte) :=
  if TatSym.isNoSym σ ∧ t.core.edges.any fun e => e.map.isEmpty then .ub
  else
    let head := putVector (putEdge pad) (putVector io.put out t.names) t.core.edges
    if TatSym.isNoSym σ then
      match t.core.blocks with
      | [] => .ub
      | b :: _ => .ok (putVector (putData pad) head b.2)
    else .ok (putMap (putVector (putData pad)) (putVector (putData pad)) head t.core.blocks)

/-- io.hpp 611-630 `meta_get`, `data_get`, 632-636 `operator>` -/
def getTensor [DecidableEq ν] [TatSym σ] [BinData σ] [BinData α] (io : NameIO ν) (inp : List Byte) :
    Outcome (Tensor ν σ α × List Byte) :=
  (getVector io.get inp).bind fun n =>
  (getVector (getEdge (σ := σ)) n.2).bind fun e =>
  (checkValidName n.1 e.1.length).bind fun _ =>
  if TatSym.isNoSym σ then
    (getVector getData e.2).bind fun b => .ok (⟨n.1, ⟨e.1, [(List.replicate n.1.length 0, b.1)]⟩⟩, b.2)
  else
    (getMap (getVector getData) (getVector getData) e.2).bind fun b => .ok (⟨n.1, ⟨e.1, b.1⟩⟩, b.2)

/-- io.hpp 594-602 `operator<` of singular values (svd.hpp `Singular::value`) -/
def putSingular [TatSym σ] [BinData σ] [BinData α] (pad : ℕ → Byte) (out : List Byte)
    (v : List (σ × List α)) : Outcome (List Byte) :=
  if TatSym.isNoSym σ then
    match v with
    | [] => .ub
    | b :: _ => .ok (putVector (putData pad) out b.2)
  else .ok (putMap (putData pad) (putVector (putData pad)) out v)

/-- io.hpp 645-654 `operator>` of singular values, into a new object -/
def getSingular [TatSym σ] [BinData σ] [BinData α] (inp : List Byte) :
    Outcome (List (σ × List α) × List Byte) :=
  if TatSym.isNoSym σ then (getVector getData inp).bind fun b => .ok ([(0, b.1)], b.2)
  else getMap getData (getVector getData) inp

/-- io.hpp 663-665, 679-683 `dump_fast_name_dataset` -/
def putDataset (out : List Byte) (d : Dataset (List Byte)) : List Byte :=
  putVector putString out (dumpDataset d)

/-- io.hpp 666-678 `load_fast_name_dataset` -/
def getDataset [LinearOrder (List Byte)] (d : Dataset (List Byte)) (inp : List Byte) : Outcome (Dataset (List Byte) × List Byte) :=
  (getVector getString inp).bind fun r => .ok (loadDataset d r.1, r.2)

end TAT
