import Verif.Mps.Model
import Verif.Square.NetModel

/-!
# Model of `examples/mps.cpp`: `update_once` and `update`

`normalised`, which divides in place, stands for `chain[i] = chain[i] / chain[i].norm<-1>()`; a norm of
zero is an error here, and gives elements which are not numbers in the program.  What `update` prints is
not modelled.
-/

namespace TAT

variable {ν α β : Type} [LinearOrder ν] [Field α] [LinearOrder β] [Field β]

/-- mps.cpp 78-84 and 88-94: the operator is applied to two tensors, and the result is taken apart.  The
first tensor is the one on the left in the sweep to the right and the one on the right in the sweep to the
left; `back` and `ahead` are "Left" and "Right", and "Right" and "Left". -/
def mpsBond (e : NetEnv ν α β) (D : ℕ) (back ahead : String) (updater a b : Tensor ν NoSymmetry α) :
    Outcome (Tensor ν NoSymmetry α × Tensor ν NoSymmetry α) :=
  (e.join (e.rename a [("Phy", "PhyA")]) (e.rename b [("Phy", "PhyB")]) [(ahead, back)]).bind fun ab =>
  (e.join ab updater [("PhyA", "I0"), ("PhyB", "I1")]).bind fun abh =>
  (svd e.gesvd e.svdEnv e.svdJunk e.sn abh [e.nm back, e.nm "O0"] (e.nm ahead) (e.nm back) D).bind fun g =>
  (multiple e.junk (fun x y => x * e.c y) e.inv g.2.2 g.2.1 (e.nm back) 'v' false).bind fun v =>
  (normalised e (e.rename g.1 [("O0", "Phy")])).bind fun a =>
  (normalised e (e.rename v [("O1", "Phy")])).bind fun b => .ok (a, b)

/-- mps.cpp 76-85: one step of the sweep to the right, for the sites `i` and `i + 1`. -/
def mpsForward (e : NetEnv ν α β) (D : ℕ) (updater : Tensor ν NoSymmetry α)
    (chain : List (Tensor ν NoSymmetry α)) (i : ℕ) : Outcome (List (Tensor ν NoSymmetry α)) :=
  (mpsSite chain i).bind fun a => (mpsSite chain (i + 1)).bind fun b =>
  (mpsBond e D "Left" "Right" updater a b).bind fun r => .ok ((chain.set i r.1).set (i + 1) r.2)

/-- mps.cpp 86-95: one step of the sweep to the left, for the sites `i + 1` and `i`. -/
def mpsBackward (e : NetEnv ν α β) (D : ℕ) (updater : Tensor ν NoSymmetry α)
    (chain : List (Tensor ν NoSymmetry α)) (i : ℕ) : Outcome (List (Tensor ν NoSymmetry α)) :=
  (mpsSite chain (i + 1)).bind fun a => (mpsSite chain i).bind fun b =>
  (mpsBond e D "Right" "Left" updater a b).bind fun r => .ok ((chain.set (i + 1) r.1).set i r.2)

/-- A loop over sites. -/
def mpsSweep {S : Type} (f : S → ℕ → Outcome S) : List ℕ → S → Outcome S
  | [], s => .ok s
  | i :: is, s => (f s i).bind fun s => mpsSweep f is s

/-- mps.cpp 75-96 `update_once`.  For an empty chain `chain.size() - 1` wraps around. -/
def mpsUpdateOnce (e : NetEnv ν α β) (D : ℕ) (updater : Tensor ν NoSymmetry α)
    (chain : List (Tensor ν NoSymmetry α)) : Outcome (List (Tensor ν NoSymmetry α)) :=
  if chain.length = 0 then .ub
  else
    (mpsSweep (mpsForward e D updater) (List.range (chain.length - 1)) chain).bind fun chain =>
    mpsSweep (mpsBackward e D updater) (List.range (chain.length - 1)).reverse chain

/-- mps.cpp 45-48 and 52-62: a new tensor whose elements are read from a list with a counter which is
`static`.  Reading after the end of the list is undefined. -/
def mpsFilled (e : AuxEnv ν α β) (data : List α) (counter : ℕ) (names : List ν)
    (edges : List (Edge NoSymmetry)) : Outcome (Tensor ν NoSymmetry α) :=
  (mkTensor e.junk names edges).bind fun t =>
  if (genBlocks (fun i => (data.getD i 0, i + 1)) t.core.blocks counter).2 ≤ data.length then
    .ok (setWith (fun i => (data.getD i 0, i + 1)) counter t)
  else .ub

/-- mps.cpp 45-48: the Hamiltonian of the constructor.  The counter is zero for the first object only. -/
def mpsHamiltonian (e : AuxEnv ν α β) (h : List α) (counter : ℕ) : Outcome (Tensor ν NoSymmetry α) :=
  mpsFilled e h counter [e.nm "I0", e.nm "I1", e.nm "O0", e.nm "O1"]
    [⟨false, [(0, 2)]⟩, ⟨false, [(0, 2)]⟩, ⟨false, [(0, 2)]⟩, ⟨false, [(0, 2)]⟩]

/-- mps.cpp 52-63: `identity - delta_t * hamiltonian`. -/
def mpsUpdater (e : AuxEnv ν α β) (env : Env NoSymmetry α) (delta : α) (hamiltonian : Tensor ν NoSymmetry α) :
    Outcome (Tensor ν NoSymmetry α) :=
  (mpsFilled e [1, 0, 0, 0, 0, 1, 0, 0, 0, 0, 1, 0, 0, 0, 0, 1] 0 hamiltonian.names
    hamiltonian.core.edges).bind fun identity =>
  (scalarNumber e.junk (fun x => delta * x) hamiltonian).bind fun scaled =>
  scalarOp env e.junk id id (fun x y => x - y) identity scaled

/-- mps.cpp 51-73 `update`, without what is printed. -/
def mpsUpdate (e : NetEnv ν α β) (env : Env NoSymmetry α) (D : ℕ) (hamiltonian : Tensor ν NoSymmetry α)
    (time : ℕ) (delta : α) (chain : List (Tensor ν NoSymmetry α)) : Outcome (List (Tensor ν NoSymmetry α)) :=
  (mpsUpdater e.toAuxEnv env delta hamiltonian).bind fun updater =>
  mpsSweep (fun chain _ => mpsUpdateOnce e D updater chain) (List.range time) chain

end TAT
