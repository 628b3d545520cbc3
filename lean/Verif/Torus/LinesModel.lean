import Verif.Torus.Model
import Verif.Trace.Model

/-!
# Model of `contract_with_two_line_to_one_line` of `examples/PBC.cpp`

`TraceEnv` has what `trace` is given.  The output of 98, 103 and 104 is not modelled.
-/

namespace TAT.Torus

open TAT.Grid (rowOf)

variable {ν α β : Type} [LinearOrder ν] [Field α] [LinearOrder β] [Zero β]

/-- What a call of `trace` is given. -/
structure TraceEnv (ν α : Type) where
  env1 : Env NoSymmetry α
  env2 : Env NoSymmetry α
  junk : List NoSymmetry → ℕ → α
  tn : TraceNames ν

/-- PBC.cpp 81-88: the last and the first site of `new_line`.  With one site they are the same, and the second
assignment is the one that counts; with none the access is outside of the vector. -/
def closeLine (e : AuxEnv ν α β) (cut : ℕ) (l : List (Tensor ν NoSymmetry α)) :
    Outcome (List (Tensor ν NoSymmetry α)) :=
  match l.head?, l.getLast? with
  | some first, some last =>
    (e.join (e.rename last [("up", "up1"), ("down", "down1")]) (e.rename first [("up", "up2"), ("down", "down2")])
      [("right_1", "left_1"), ("right_2", "left_2")]).bind fun x =>
    (svd e.gesvd e.svdEnv e.svdJunk e.sn x [e.nm "up1", e.nm "down1", e.nm "left"] (e.nm "right") (e.nm "left")
      cut).bind fun f =>
    (multiple e.junk (fun x y => x * e.c y) e.inv f.1 f.2.1 (e.nm "right") 'u' false).bind fun u =>
    .ok ((l.set 0 (e.rename f.2.2 [("up2", "up"), ("down2", "down")])).set (l.length - 1)
      (e.rename u [("up1", "up"), ("down1", "down")]))
  | _, _ => .ub

/-- PBC.cpp 68-94: `up_to_down_aux[k]` -/
def lines (e : AuxEnv ν α β) (L : ℕ) (site : ℕ → ℕ → Tensor ν NoSymmetry α) (cut : ℕ) :
    ℕ → Outcome (List (Tensor ν NoSymmetry α))
  | 0 => .ok (rowOf L site 0)
  | k + 1 => (lines e L site cut k).bind fun l =>
    (Grid.twoLineToOneLine e "up" "down" "left" "right" l (rowOf L site (k + 1)) cut).bind fun l =>
    closeLine e cut l

/-- `trace` with a list of pairs of strings. -/
def traced (e : AuxEnv ν α β) (tr : TraceEnv ν α) (t : Tensor ν NoSymmetry α) (pairs : List (String × String)) :
    Outcome (Tensor ν NoSymmetry α) :=
  traceTensor tr.env1 tr.env2 tr.junk tr.tn t (pairs.map fun p => (e.nm p.1, e.nm p.2))

/-- PBC.cpp 97-101 -/
def joinLine (e : AuxEnv ν α β) (tr : TraceEnv ν α) : List (Tensor ν NoSymmetry α) → Tensor ν NoSymmetry α →
    Outcome (Tensor ν NoSymmetry α)
  | [], r => .ok r
  | t :: l, r =>
    (traced e tr t [("up", "down")]).bind fun t =>
    (e.join r t [("right", "left")]).bind fun r => joinLine e tr l r

/-- PBC.cpp 67-107 `contract_with_two_line_to_one_line` -/
def contractLines (e : AuxEnv ν α β) (tr : TraceEnv ν α) (L : ℕ) (site : ℕ → ℕ → Tensor ν NoSymmetry α) (cut : ℕ) :
    Outcome α :=
  (lines e L site cut (L - 1)).bind fun l =>
  (joinLine e tr l oneTensor).bind fun r =>
  (traced e tr r [("left", "right")]).bind onlyElement

end TAT.Torus
