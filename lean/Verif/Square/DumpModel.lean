import Verif.Io.Binary

/-!
# Dumps of lattices

include/square/abstract_lattice.hpp 75-128, abstract_network_lattice.hpp 70-86, simple_update_lattice.hpp
327-353, sampling_gradient_lattice.hpp 562-584 and exact_lattice.hpp 128-143.

A `std::shared_ptr<const Tensor<T>>` is an address; `heap` says what is there (nothing for a null pointer).
Reading makes new tensors; those of a pool have the addresses 0, 1, ...
-/

namespace TAT

variable {ν α : Type}

/-- `std::tuple<int, int>` -/
abbrev Pos32 := BitVec 32 × BitVec 32

/-- The last element of a `std::tuple` comes first in memory (libstdc++). -/
instance : BinData Pos32 where
  size := 8
  bytes pad p := BinData.bytes pad p.2 ++ BinData.bytes pad p.1
  parse l := (BinData.parse (l.take 4) : Outcome (BitVec 32)).bind fun y =>
    (BinData.parse (l.drop 4) : Outcome (BitVec 32)).bind fun x => .ok (x, y)

/-- `std::tuple<char, int, int>`, the key of an environment -/
abbrev EnvKey := Byte × BitVec 32 × BitVec 32

/-- Three bytes of padding at the end. -/
instance : BinData EnvKey where
  size := 12
  bytes pad p := BinData.bytes pad p.2.2 ++ BinData.bytes pad p.2.1 ++ [p.1, pad 9, pad 10, pad 11]
  parse l := (BinData.parse (l.take 4) : Outcome (BitVec 32)).bind fun y =>
    (BinData.parse ((l.drop 4).take 4) : Outcome (BitVec 32)).bind fun x =>
    match l.drop 8 with
    | c :: _ => .ok (c, x, y)
    | [] => .ub

/-- abstract_lattice.hpp 34-38 `AbstractLattice` -/
structure LatticeBase (ν α : Type) where
  M : BitVec 32
  N : BitVec 32
  d : ℕ
  heap : ℕ → Option (Tensor ν NoSymmetry α)
  hams : List (List Pos32 × ℕ)

/-- abstract_lattice.hpp 83-90: one term; `s.1` is `pool`, `s.2` is `pool_map`. -/
def poolStep [LinearOrder (List Pos32)] (s : List ℕ × List (List Pos32 × ℕ)) (e : List Pos32 × ℕ) :
    List ℕ × List (List Pos32 × ℕ) :=
  match s.1.findIdx? fun a => a == e.2 with
  | some i => (s.1, OMap.set s.2 e.1 i)
  | none => (s.1 ++ [e.2], OMap.set s.2 e.1 s.1.length)

/-- Writing objects one after the other, if writing can fail. -/
def putAllM {τ : Type} (put : List Byte → τ → Outcome (List Byte)) :
    List τ → List Byte → Outcome (List Byte)
  | [], out => .ok out
  | x :: xs, out => (put out x).bind (putAllM put xs)

/-- io.hpp 251-267 `operator<` of vectors -/
def putVectorM {τ : Type} (put : List Byte → τ → Outcome (List Byte)) (out : List Byte) (l : List τ) :
    Outcome (List Byte) :=
  putAllM put l (putSize out l.length)

/-- abstract_lattice.hpp 93-95: `out < *tensor` -/
def putPointer [BinData α] (io : NameIO ν) (pad : ℕ → Byte) (heap : ℕ → Option (Tensor ν NoSymmetry α))
    (out : List Byte) (a : ℕ) : Outcome (List Byte) :=
  match heap a with
  | none => .ub
  | some t => putTensor io pad out t

/-- abstract_lattice.hpp 75-102 `operator<`; `pool_map` has `int` values. -/
def putLattice [LinearOrder (List Pos32)] [BinData α] (io : NameIO ν) (pad : ℕ → Byte) (out : List Byte)
    (L : LatticeBase ν α) : Outcome (List Byte) :=
  let s := L.hams.foldl poolStep ([], [])
  (putVectorM (putPointer io pad L.heap) (putSize (putData pad (putData pad out L.M) L.N) L.d) s.1).bind
    fun out => .ok (putAll (fun out e => putData pad (putVector (putData pad) out e.1) (BitVec.ofNat 32 e.2))
      (putSize out s.2.length) s.2)

/-- abstract_lattice.hpp 119-123: one term; an index which is not one of the pool is undefined. -/
def getTerm (pool : ℕ) (inp : List Byte) : Outcome ((List Pos32 × ℕ) × List Byte) :=
  (getVector getData inp).bind fun k =>
  (getData k.2 : Outcome (BitVec 32 × List Byte)).bind fun i =>
  if 0 ≤ i.1.toInt ∧ i.1.toInt < pool then .ok ((k.1, i.1.toNat), i.2) else .ub

/-- abstract_lattice.hpp 104-126 `operator>` -/
def getLattice [LinearOrder (List Pos32)] [DecidableEq ν] [BinData α] (io : NameIO ν) (inp : List Byte) :
    Outcome (LatticeBase ν α × List Byte) :=
  (getData inp).bind fun M =>
  (getData M.2).bind fun N =>
  (getSize N.2).bind fun d =>
  (getVector (getTensor io) d.2).bind fun pool =>
  (getVector (getTerm pool.1.length) pool.2).bind fun hams =>
  .ok (⟨M.1, N.1, d.1, fun i => pool.1[i]?, OMap.ofList hams.1⟩, hams.2)

/-- abstract_network_lattice.hpp 30-32 `AbstractNetworkLattice` -/
structure NetworkLattice (ν α : Type) where
  base : LatticeBase ν α
  D : ℕ
  lattice : List (List (Tensor ν NoSymmetry α))

/-- abstract_network_lattice.hpp 70-77 `operator<` -/
def putNetwork [LinearOrder (List Pos32)] [BinData α] (io : NameIO ν) (pad : ℕ → Byte) (out : List Byte)
    (L : NetworkLattice ν α) : Outcome (List Byte) :=
  (putLattice io pad out L.base).bind fun out =>
  putVectorM (putVectorM (putTensor io pad)) (putSize out L.D) L.lattice

/-- abstract_network_lattice.hpp 79-86 `operator>` -/
def getNetwork [LinearOrder (List Pos32)] [DecidableEq ν] [BinData α] (io : NameIO ν) (inp : List Byte) :
    Outcome (NetworkLattice ν α × List Byte) :=
  (getLattice io inp).bind fun base =>
  (getSize base.2).bind fun D =>
  (getVector (getVector (getTensor io)) D.2).bind fun l => .ok (⟨base.1, D.1, l.1⟩, l.2)

/-- simple_update_lattice.hpp 34-35 `SimpleUpdateLattice`; `β` is `real<T>`. -/
structure SimpleLattice (ν α β : Type) where
  network : NetworkLattice ν α
  environment : List (EnvKey × List (NoSymmetry × List β))

/-- simple_update_lattice.hpp 327-337 `operator<` -/
def putSimple {β : Type} [LinearOrder (List Pos32)] [BinData α] [BinData β] (io : NameIO ν)
    (pad : ℕ → Byte) (out : List Byte) (L : SimpleLattice ν α β) : Outcome (List Byte) :=
  (putNetwork io pad out L.network).bind fun out =>
  putVectorM (fun out e => putSingular pad (putData pad out e.1) e.2) out L.environment

/-- simple_update_lattice.hpp 339-353 `operator>` -/
def getSimple {β : Type} [LinearOrder (List Pos32)] [LinearOrder EnvKey] [DecidableEq ν] [BinData α]
    [BinData β] (io : NameIO ν) (inp : List Byte) : Outcome (SimpleLattice ν α β × List Byte) :=
  (getNetwork io inp).bind fun n =>
  (getVector (getEntry getData getSingular) n.2).bind fun e => .ok (⟨n.1, OMap.ofList e.1⟩, e.2)

/-- sampling_gradient_lattice.hpp 91-93 `SamplingGradientLattice`; of the spins only the configuration is
kept, the tensors of the auxiliary system follow from it. -/
structure SamplingLattice (ν α : Type) where
  network : NetworkLattice ν α
  Dc : ℕ
  configuration : List (List (BitVec 32))

/-- sampling_gradient_lattice.hpp 562-570 `operator<` -/
def putSampling [LinearOrder (List Pos32)] [BinData α] (io : NameIO ν) (pad : ℕ → Byte) (out : List Byte)
    (L : SamplingLattice ν α) : Outcome (List Byte) :=
  (putNetwork io pad out L.network).bind fun out =>
  .ok (putVector (putVector (putData pad)) (putSize out L.Dc) L.configuration)

/-- An element of a `std::vector` -/
def entryAt {τ : Type} (l : List τ) (i : ℕ) : Outcome τ :=
  match l[i]? with
  | none => .ub
  | some x => .ok x

/-- sampling_gradient_lattice.hpp 45-52 and 146-152: a new configuration, all of it set from another one;
an `int` which is negative runs no loop. -/
def initializeSpin (M N : BitVec 32) (c : List (List (BitVec 32))) : Outcome (List (List (BitVec 32))) :=
  (List.range M.toInt.toNat).mapM fun i =>
    (List.range N.toInt.toNat).mapM fun j => (entryAt c i).bind fun row => entryAt row j

/-- sampling_gradient_lattice.hpp 572-584 `operator>` -/
def getSampling [LinearOrder (List Pos32)] [DecidableEq ν] [BinData α] (io : NameIO ν) (inp : List Byte) :
    Outcome (SamplingLattice ν α × List Byte) :=
  (getNetwork io inp).bind fun n =>
  (getSize n.2).bind fun Dc =>
  (getVector (getVector getData) Dc.2).bind fun c =>
  if c.1.isEmpty then
    .ok (⟨n.1, Dc.1, List.replicate n.1.base.M.toInt.toNat (List.replicate n.1.base.N.toInt.toNat (-1))⟩, c.2)
  else (initializeSpin n.1.base.M n.1.base.N c.1).bind fun s => .ok (⟨n.1, Dc.1, s⟩, c.2)

/-- exact_lattice.hpp 33-34 `ExactLattice` -/
structure ExactDump (ν α : Type) where
  base : LatticeBase ν α
  vector : Tensor ν NoSymmetry α

/-- exact_lattice.hpp 129-135 `operator<` -/
def putExact [LinearOrder (List Pos32)] [BinData α] (io : NameIO ν) (pad : ℕ → Byte) (out : List Byte)
    (L : ExactDump ν α) : Outcome (List Byte) :=
  (putLattice io pad out L.base).bind fun out => putTensor io pad out L.vector

/-- exact_lattice.hpp 137-143 `operator>` -/
def getExact [LinearOrder (List Pos32)] [DecidableEq ν] [BinData α] (io : NameIO ν) (inp : List Byte) :
    Outcome (ExactDump ν α × List Byte) :=
  (getLattice io inp).bind fun base => (getTensor io base.2).bind fun v => .ok (⟨base.1, v.1⟩, v.2)

end TAT
