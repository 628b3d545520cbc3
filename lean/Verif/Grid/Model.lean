import Verif.Square.AuxModel

/-!
# Model of `examples/tools.hpp` and `examples/OBC.cpp`

`AuxEnv` has what contraction and decomposition are given.  The sets of pairs of names that are passed to
`contract` are lists in the order of the source.  The output of `main` (OBC.cpp 104-126) is not modelled.
-/

namespace TAT.Grid

variable {ν α β : Type} [LinearOrder ν] [Field α] [LinearOrder β] [Zero β]

/-! ## `two_line_to_one_line` -/

/-- tools.hpp 34-42: the names of the edges. -/
structure Names where
  up : String
  down : String
  left : String
  right : String
  up1 : String
  up2 : String
  down1 : String
  down2 : String
  left1 : String
  left2 : String
  right1 : String
  right2 : String

/-- tools.hpp 34-42 -/
def namesOf (up down left right : String) : Names :=
  ⟨up, down, left, right, up ++ "_1", up ++ "_2", down ++ "_1", down ++ "_2", left ++ "_1", left ++ "_2",
    right ++ "_1", right ++ "_2"⟩

/-- tools.hpp 51-57: `double_line` -/
def products (e : AuxEnv ν α β) (n : Names) :
    List (Tensor ν NoSymmetry α) → List (Tensor ν NoSymmetry α) → Outcome (List (Tensor ν NoSymmetry α))
  | t1 :: l1, t2 :: l2 =>
    (e.join (e.rename t1 [(n.left, n.left1), (n.right, n.right1)])
      (e.rename t2 [(n.left, n.left2), (n.right, n.right2)]) [(n.down, n.up)]).bind fun t =>
    (products e n l1 l2).bind fun l => .ok (t :: l)
  | _, _ => .ok []

/-- tools.hpp 59-66: left canonicalize.  `svd` is called without a cut. -/
def canonical (e : AuxEnv ν α β) (n : Names) :
    ℕ → List (Tensor ν NoSymmetry α) → Outcome (List (Tensor ν NoSymmetry α))
  | k + 1, t :: t' :: l =>
    (svd e.gesvd e.svdEnv e.svdJunk e.sn t [e.nm n.right1, e.nm n.right2] (e.nm n.left) (e.nm n.right)
      (2 ^ 64 - 1)).bind fun f =>
    (e.join t' f.1 [(n.left1, n.right1), (n.left2, n.right2)]).bind fun t'' =>
    (multiple e.junk (fun x y => x * e.c y) e.inv t'' f.2.1 (e.nm n.left) 'u' false).bind fun t'' =>
    (canonical e n k (t'' :: l)).bind fun l => .ok (f.2.2 :: l)
  | _, l => .ok l

/-- tools.hpp 77-82: `u_names` -/
def freeNames (e : AuxEnv ν α β) (n : Names) (t : Tensor ν NoSymmetry α) : List ν :=
  ((((t.names.filter fun x => decide (x ≠ e.nm n.right)).filter fun x => decide (x ≠ e.nm n.up)).filter
    fun x => decide (x ≠ e.nm n.down))) ++ [e.nm n.up1, e.nm n.down1]

/-- tools.hpp 72-90: right svd -/
def truncated (e : AuxEnv ν α β) (n : Names) (cut : ℕ) :
    List (Tensor ν NoSymmetry α) → Outcome (List (Tensor ν NoSymmetry α))
  | [] => .ok []
  | t :: l =>
    (truncated e n cut l).bind fun l =>
    match l with
    | [] => .ok [t]
    | t' :: l =>
      (e.join (e.rename t [(n.up, n.up1), (n.down, n.down1)]) (e.rename t' [(n.up, n.up2), (n.down, n.down2)])
        [(n.right, n.left)]).bind fun x =>
      (svd e.gesvd e.svdEnv e.svdJunk e.sn x (freeNames e n t) (e.nm n.right) (e.nm n.left) cut).bind fun f =>
      (multiple e.junk (fun x y => x * e.c y) e.inv f.1 f.2.1 (e.nm n.right) 'u' false).bind fun u =>
      .ok (e.rename u [(n.up1, n.up), (n.down1, n.down)] ::
        e.rename f.2.2 [(n.up2, n.up), (n.down2, n.down)] :: l)

/-- tools.hpp 44-94, `n` has the names of 34-42 -/
def oneLine (e : AuxEnv ν α β) (n : Names) (line1 line2 : List (Tensor ν NoSymmetry α)) (cut : ℕ) :
    Outcome (List (Tensor ν NoSymmetry α)) :=
  if line1.length ≠ line2.length then .error "Different Length When Do Two Line to One Line"
  else
    (products e n line1 line2).bind fun l =>
    (canonical e n l.length l).bind fun l => truncated e n cut l

/-- tools.hpp 28-94 `two_line_to_one_line` -/
def twoLineToOneLine (e : AuxEnv ν α β) (up down left right : String)
    (line1 line2 : List (Tensor ν NoSymmetry α)) (cut : ℕ) : Outcome (List (Tensor ν NoSymmetry α)) :=
  oneLine e (namesOf up down left right) line1 line2 cut

/-! ## The lattice -/

/-- OBC.cpp 28-34 `get_name` and `left`, `right`, `up`, `down` -/
def numbered (alphabet : String) (i : ℕ) : String := alphabet ++ toString i

/-- OBC.cpp 45-57: the names of the edges of a site -/
def siteNames (L i j : ℕ) : List String :=
  (if i ≠ 0 then ["up"] else []) ++ (if i + 1 ≠ L then ["down"] else []) ++
  (if j ≠ 0 then ["left"] else []) ++ (if j + 1 ≠ L then ["right"] else [])

/-- OBC.cpp 42-61: the constructor, for the sites of a list of positions.  The generator carries a state. -/
def newSites {S : Type} (e : AuxEnv ν α β) (gen : S → α × S) (L D : ℕ) :
    List (ℕ × ℕ) → S → Outcome (List ((ℕ × ℕ) × Tensor ν NoSymmetry α))
  | [], _ => .ok []
  | p :: ps, s =>
    (mkTensor e.junk ((siteNames L p.1 p.2).map e.nm)
      ((siteNames L p.1 p.2).map fun _ => ⟨false, [(0, D)]⟩)).bind fun t =>
    (newSites e gen L D ps (genBlocks gen t.core.blocks s).2).bind fun l => .ok ((p, setWith gen s t) :: l)

/-- The order of the loops of OBC.cpp 43-44 and 65-66. -/
def positions (L : ℕ) : List (ℕ × ℕ) := (List.range L).flatMap fun i => (List.range L).map fun j => (i, j)

/-- OBC.cpp 42-61 `PBC(L, D, generator)` -/
def newLattice {S : Type} (e : AuxEnv ν α β) (gen : S → α × S) (s : S) (L D : ℕ) :
    Outcome (List ((ℕ × ℕ) × Tensor ν NoSymmetry α)) :=
  newSites e gen L D (positions L) s

/-- OBC.cpp 67-69: one more site -/
def exactStep (e : AuxEnv ν α β) (site : ℕ → ℕ → Tensor ν NoSymmetry α) (r : Tensor ν NoSymmetry α) (p : ℕ × ℕ) :
    Outcome (Tensor ν NoSymmetry α) :=
  e.join r (e.rename (site p.1 p.2) [("up", numbered "up" p.2), ("down", numbered "down" p.2),
      ("left", numbered "left" p.1), ("right", numbered "right" p.1)])
    [(numbered "right" p.1, numbered "left" p.1), (numbered "down" p.2, numbered "up" p.2)]

/-- OBC.cpp 65-71: the sites of a list of positions -/
def exactSteps (e : AuxEnv ν α β) (site : ℕ → ℕ → Tensor ν NoSymmetry α) :
    List (ℕ × ℕ) → Tensor ν NoSymmetry α → Outcome (Tensor ν NoSymmetry α)
  | [], r => .ok r
  | p :: ps, r => (exactStep e site r p).bind fun r => exactSteps e site ps r

/-- OBC.cpp 63-73 `get_exact`.  The conversion of a tensor to a number is `onlyElement`. -/
def getExact (e : AuxEnv ν α β) (L : ℕ) (site : ℕ → ℕ → Tensor ν NoSymmetry α) : Outcome α :=
  (exactSteps e site (positions L) oneTensor).bind onlyElement

/-- One row of the lattice, OBC.cpp 77-79 and 84-87 -/
def rowOf (L : ℕ) (site : ℕ → ℕ → Tensor ν NoSymmetry α) (i : ℕ) : List (Tensor ν NoSymmetry α) :=
  (List.range L).map (site i)

/-- OBC.cpp 76-94: `up_to_down_aux[k]` -/
def lines (e : AuxEnv ν α β) (L : ℕ) (site : ℕ → ℕ → Tensor ν NoSymmetry α) (cut : ℕ) :
    ℕ → Outcome (List (Tensor ν NoSymmetry α))
  | 0 => .ok (rowOf L site 0)
  | k + 1 => (lines e L site cut k).bind fun l =>
    twoLineToOneLine e "up" "down" "left" "right" l (rowOf L site (k + 1)) cut

/-- OBC.cpp 96-98 -/
def joinLine (e : AuxEnv ν α β) : List (Tensor ν NoSymmetry α) → Tensor ν NoSymmetry α →
    Outcome (Tensor ν NoSymmetry α)
  | [], r => .ok r
  | t :: l, r => (e.join r t [("right", "left")]).bind fun r => joinLine e l r

/-- OBC.cpp 75-101 `contract_with_two_line_to_one_line` -/
def contractLines (e : AuxEnv ν α β) (L : ℕ) (site : ℕ → ℕ → Tensor ν NoSymmetry α) (cut : ℕ) : Outcome α :=
  (lines e L site cut (L - 1)).bind fun l => (joinLine e l oneTensor).bind onlyElement

end TAT.Grid
