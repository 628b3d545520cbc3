import Verif.Square.AuxModel

/-!
# Model of `examples/mps.cpp`: the energy of a chain

`left_pool` and `right_pool` are looked up but never written, so every call computes its result; they
are left out.  `AuxEnv` has what contraction and decomposition are given.
-/

namespace TAT

variable {ν α β : Type} [LinearOrder ν] [Field α] [LinearOrder β] [Zero β]

/-- mps.cpp 109-113: one site more on the left. -/
def mpsLeftStep (e : AuxEnv ν α β) (l t : Tensor ν NoSymmetry α) : Outcome (Tensor ν NoSymmetry α) :=
  (e.join l t [("Right1", "Left")]).bind fun a =>
  (e.join (e.rename a [("Right", "Right1")]) t [("Right2", "Left"), ("Phy", "Phy")]).bind fun b =>
  .ok (e.rename b [("Right", "Right2")])

/-- `chain[i]`; reading outside of the vector is undefined. -/
def mpsSite (chain : List (Tensor ν NoSymmetry α)) (i : ℕ) : Outcome (Tensor ν NoSymmetry α) :=
  match chain[i]? with
  | some t => .ok t
  | none => .ub

/-- mps.cpp 101-114 `get_left`; `mpsLeft e chain k` is `get_left(k - 1)`. -/
def mpsLeft (e : AuxEnv ν α β) (chain : List (Tensor ν NoSymmetry α)) :
    ℕ → Outcome (Tensor ν NoSymmetry α)
  | 0 => .ok oneTensor
  | k + 1 => (mpsLeft e chain k).bind fun l => (mpsSite chain k).bind fun t => mpsLeftStep e l t

/-- mps.cpp 123-127: one site more on the right. -/
def mpsRightStep (e : AuxEnv ν α β) (r t : Tensor ν NoSymmetry α) : Outcome (Tensor ν NoSymmetry α) :=
  (e.join r t [("Left1", "Right")]).bind fun a =>
  (e.join (e.rename a [("Left", "Left1")]) t [("Left2", "Right"), ("Phy", "Phy")]).bind fun b =>
  .ok (e.rename b [("Left", "Left2")])

/-- mps.cpp 115-128 `get_right`; `mpsRight e (chain.drop i)` is `get_right(i)` for `i` up to the
length of the chain. -/
def mpsRight (e : AuxEnv ν α β) : List (Tensor ν NoSymmetry α) → Outcome (Tensor ν NoSymmetry α)
  | [] => .ok oneTensor
  | t :: ts => (mpsRight e ts).bind fun r => mpsRightStep e r t

/-- mps.cpp 131-141: the summand of the bond between the sites `i` and `i + 1`. -/
def mpsTerm (e : AuxEnv ν α β) (chain : List (Tensor ν NoSymmetry α)) (h : Tensor ν NoSymmetry α) (i : ℕ) :
    Outcome (Tensor ν NoSymmetry α) :=
  (mpsLeft e chain i).bind fun l => (mpsSite chain i).bind fun a =>
  (mpsSite chain (i + 1)).bind fun b =>
  (e.join l a [("Right1", "Left")]).bind fun t =>
  (e.join (e.rename t [("Right", "Right1"), ("Phy", "PhyA")]) b [("Right1", "Left")]).bind fun t =>
  (e.join (e.rename t [("Right", "Right1"), ("Phy", "PhyB")]) h [("PhyA", "I0"), ("PhyB", "I1")]).bind fun t =>
  (e.join t a [("Right2", "Left"), ("O0", "Phy")]).bind fun t =>
  (e.join (e.rename t [("Right", "Right2")]) b [("Right2", "Left"), ("O1", "Phy")]).bind fun t =>
  (mpsRight e (chain.drop (i + 2))).bind fun r =>
  e.join (e.rename t [("Right", "Right2")]) r [("Right1", "Left1"), ("Right2", "Left2")]

/-- mps.cpp 129-142: `energy += ...` for the bonds of a list; the conversion of a tensor to a number is
`onlyElement`. -/
def mpsSum (e : AuxEnv ν α β) (chain : List (Tensor ν NoSymmetry α)) (h : Tensor ν NoSymmetry α) :
    List ℕ → α → Outcome α
  | [], energy => .ok energy
  | i :: is, energy =>
    (mpsTerm e chain h i).bind fun t => (onlyElement t).bind fun x => mpsSum e chain h is (energy + x)

/-- mps.cpp 98-145 `energy`.  For an empty chain `chain.size() - 1` wraps around and the loop reads
outside of the chain.  Division by zero, which gives no number, is an error here. -/
def mpsEnergy [DecidableEq α] (e : AuxEnv ν α β) (chain : List (Tensor ν NoSymmetry α))
    (h : Tensor ν NoSymmetry α) : Outcome α :=
  if chain.length = 0 then .ub
  else
    (mpsSum e chain h (List.range (chain.length - 1)) 0).bind fun energy =>
    (mpsRight e chain).bind fun r => (onlyElement r).bind fun z =>
    if z = 0 then .error "the norm is zero" else .ok (energy / z / chain.length)

/-! ## the constructor -/

/-- mps.cpp 37-43: names and dimensions of site `i` of `n`. -/
def mpsLegs (n dim i : ℕ) : List (String × ℕ) :=
  if i = 0 then [("Phy", 2), ("Right", dim)]
  else if i + 1 = n then [("Phy", 2), ("Left", dim)]
  else [("Phy", 2), ("Left", dim), ("Right", dim)]

/-- mps.cpp 36-44: the sites from `i` on, `k` of them.  The generator carries a state. -/
def mpsNewFrom {S : Type} (e : AuxEnv ν α β) (gen : S → α × S) (n dim : ℕ) :
    ℕ → ℕ → S → Outcome (List (Tensor ν NoSymmetry α))
  | 0, _, _ => .ok []
  | k + 1, i, s =>
    (mkTensor e.junk ((mpsLegs n dim i).map fun p => e.nm p.1)
      ((mpsLegs n dim i).map fun p => ⟨false, [(0, p.2)]⟩)).bind fun t =>
    (mpsNewFrom e gen n dim k (i + 1) (genBlocks gen t.core.blocks s).2).bind fun l =>
    .ok (setWith gen s t :: l)

/-- mps.cpp 35-44: the chain of the constructor of `MPS`. -/
def mpsNew {S : Type} (e : AuxEnv ν α β) (gen : S → α × S) (s : S) (n dim : ℕ) :
    Outcome (List (Tensor ν NoSymmetry α)) :=
  mpsNewFrom e gen n dim n 0 s

end TAT
