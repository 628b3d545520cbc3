import Verif.Square.Model
import Verif.Square.ExactModel
import Verif.Square.DenseDecomp

/-!
# Model of `square/auxiliaries_system.hpp`

The nodes of the lazy graph are replaced by the values they compute (C40 is about the graph itself).
The map `up_to_down` has the keys -1 to M - 1, `upToDown` counts from zero: `upToDown k` is
`up_to_down[k - 1]`, and `downToUp k` is `down_to_up[M - k]`.  The same holds for the columns and for the
nodes `_3_1` and `_3_3`.
-/

namespace TAT

variable {ν α β : Type}

/-- What the contraction and the decompositions are given: see `ContractEnv`, `DecompEnv`; `c` takes
singular values to scalars and `nm` is `Name(const char*)` (name.hpp). -/
structure AuxEnv (ν α β : Type) where
  ce : ContractEnv NoSymmetry α
  cn : ContractNames ν
  lp : LapackQr α
  qrEnv : DecompEnv NoSymmetry α
  qrJunk : ℕ → α
  qn : QrNames ν
  gesvd : Gesvd α β
  svdEnv : DecompEnv NoSymmetry α
  svdJunk : ℕ → α
  sn : SvdNames ν
  junk : List NoSymmetry → ℕ → α
  c : β → α
  inv : β → β
  nm : String → ν

variable [LinearOrder ν] [CommRing α] [LinearOrder β] [Zero β]

/-- tensor.hpp 201-203 `Tensor(ScalarType number)` with the number one. -/
def oneTensor : Tensor ν NoSymmetry α := ⟨[], ⟨[], [([], [1])]⟩⟩

/-- `edge_rename` with a list of pairs of strings. -/
def AuxEnv.rename (e : AuxEnv ν α β) (t : Tensor ν NoSymmetry α) (d : List (String × String)) :
    Tensor ν NoSymmetry α :=
  edgeRename t (OMap.ofList (d.map fun p => (e.nm p.1, e.nm p.2)))

/-- `contract` with a list of pairs of strings. -/
def AuxEnv.join (e : AuxEnv ν α β) (t1 t2 : Tensor ν NoSymmetry α) (pairs : List (String × String)) :
    Outcome (Tensor ν NoSymmetry α) :=
  contract e.ce e.cn t1 t2 (pairs.map fun p => (e.nm p.1, e.nm p.2))

/-! ## `_two_line_to_one_line` -/

/-- auxiliaries_system.hpp 492-496: `double_line` -/
def doubleLine (e : AuxEnv ν α β) (up down left right : String) :
    List (Tensor ν NoSymmetry α) → List (Tensor ν NoSymmetry α) → Outcome (List (Tensor ν NoSymmetry α))
  | t1 :: l1, t2 :: l2 =>
    (e.join (e.rename t1 [(left, left ++ "1"), (right, right ++ "1")])
      (e.rename t2 [(left, left ++ "2"), (right, right ++ "2")]) [(down, up)]).bind fun t =>
    (doubleLine e up down left right l1 l2).bind fun l => .ok (t :: l)
  | _, _ => .ok []

/-- auxiliaries_system.hpp 497-502: the sweep of QR decompositions. -/
def qrSweep (e : AuxEnv ν α β) (left right : String) :
    ℕ → List (Tensor ν NoSymmetry α) → Outcome (List (Tensor ν NoSymmetry α))
  | n + 1, t :: t' :: l =>
    (qr e.lp e.qrEnv e.qrJunk e.qn t 'r' [e.nm (right ++ "1"), e.nm (right ++ "2")] (e.nm right)
      (e.nm left)).bind fun f =>
    (e.join t' f.2 [(left ++ "1", right ++ "1"), (left ++ "2", right ++ "2")]).bind fun t'' =>
    (qrSweep e left right n (t'' :: l)).bind fun l => .ok (f.1 :: l)
  | _, l => .ok l

/-- auxiliaries_system.hpp 503-511: the sweep of SVD decompositions from the right. -/
def svdSweep (e : AuxEnv ν α β) (up down left right : String) (cut : ℕ) :
    List (Tensor ν NoSymmetry α) → Outcome (List (Tensor ν NoSymmetry α))
  | [] => .ok []
  | t :: l =>
    (svdSweep e up down left right cut l).bind fun l =>
    match l with
    | [] => .ok [t]
    | t' :: l =>
      (e.join (e.rename t [(up, up ++ "1"), (down, down ++ "1")])
        (e.rename t' [(up, up ++ "2"), (down, down ++ "2")]) [(right, left)]).bind fun x =>
      (svd e.gesvd e.svdEnv e.svdJunk e.sn x [e.nm left, e.nm (up ++ "1"), e.nm (down ++ "1")] (e.nm right)
        (e.nm left) cut).bind fun f =>
      (multiple e.junk (fun x y => x * e.c y) e.inv f.1 f.2.1 (e.nm right) 'u' false).bind fun u =>
      .ok (e.rename u [(up ++ "1", up), (down ++ "1", down)] ::
        e.rename f.2.2 [(up ++ "2", up), (down ++ "2", down)] :: l)

/-- auxiliaries_system.hpp 469-513 `_two_line_to_one_line`.  With empty lines `length - 1` wraps around
and the loops read outside of the vector. -/
def twoLineToOneLine (e : AuxEnv ν α β) (up down left right : String)
    (line1 line2 : List (Tensor ν NoSymmetry α)) (cut : ℕ) : Outcome (List (Tensor ν NoSymmetry α)) :=
  if line2.length ≠ line1.length then .error "Different Length in Two Line to One Line"
  else if line1.length = 0 then .ub
  else
    (doubleLine e up down left right line1 line2).bind fun l =>
    (qrSweep e left right l.length l).bind fun l =>
    svdSweep e up down left right cut l

/-! ## The lines -/

/-- `lattice`, with its size and `dimension_cut` (auxiliaries_system.hpp 31-35). -/
structure AuxLattice (ν α : Type) where
  M : ℕ
  N : ℕ
  cut : ℕ
  site : ℕ → ℕ → Tensor ν NoSymmetry α

/-- auxiliaries_system.hpp 515-527 `_collect_line(true, i)` -/
def AuxLattice.row (a : AuxLattice ν α) (i : ℕ) : List (Tensor ν NoSymmetry α) :=
  (List.range a.N).map fun j => a.site i j

/-- auxiliaries_system.hpp 528-539 `_collect_line(false, j)` -/
def AuxLattice.column (a : AuxLattice ν α) (j : ℕ) : List (Tensor ν NoSymmetry α) :=
  (List.range a.M).map fun i => a.site i j

/-- auxiliaries_system.hpp 68-90: `up_to_down[k - 1]` -/
def upToDown (e : AuxEnv ν α β) (a : AuxLattice ν α) : ℕ → Outcome (List (Tensor ν NoSymmetry α))
  | 0 => .ok (List.replicate a.N oneTensor)
  | k + 1 => (upToDown e a k).bind fun l => twoLineToOneLine e "U" "D" "L" "R" l (a.row k) a.cut

/-- auxiliaries_system.hpp 92-114: `down_to_up[M - k]` -/
def downToUp (e : AuxEnv ν α β) (a : AuxLattice ν α) : ℕ → Outcome (List (Tensor ν NoSymmetry α))
  | 0 => .ok (List.replicate a.N oneTensor)
  | k + 1 => (downToUp e a k).bind fun l =>
    twoLineToOneLine e "D" "U" "L" "R" l (a.row (a.M - (k + 1))) a.cut

/-- auxiliaries_system.hpp 116-138: `left_to_right[k - 1]` -/
def leftToRight (e : AuxEnv ν α β) (a : AuxLattice ν α) : ℕ → Outcome (List (Tensor ν NoSymmetry α))
  | 0 => .ok (List.replicate a.M oneTensor)
  | k + 1 => (leftToRight e a k).bind fun l => twoLineToOneLine e "L" "R" "U" "D" l (a.column k) a.cut

/-- auxiliaries_system.hpp 140-162: `right_to_left[N - k]` -/
def rightToLeft (e : AuxEnv ν α β) (a : AuxLattice ν α) : ℕ → Outcome (List (Tensor ν NoSymmetry α))
  | 0 => .ok (List.replicate a.M oneTensor)
  | k + 1 => (rightToLeft e a k).bind fun l =>
    twoLineToOneLine e "R" "L" "U" "D" l (a.column (a.N - (k + 1))) a.cut

/-- `line[j]` of a `std::vector` -/
def lineAt (l : List (Tensor ν NoSymmetry α)) (j : ℤ) : Outcome (Tensor ν NoSymmetry α) :=
  if 0 ≤ j then (match l[j.toNat]? with | some t => .ok t | none => .ub) else .ub

/-! ## Three lines to one tensor

`near`, `far` are the lines before and after the row or column. -/

/-- auxiliaries_system.hpp 176, 230, 286, 344: from `_3_3` to the next `_3_1`; the directions are those of
the row, `"L"` and `"R"`, from left to right. -/
def step31 (e : AuxEnv ν α β) (left right mark : String) (last line : Tensor ν NoSymmetry α) :
    Outcome (Tensor ν NoSymmetry α) :=
  (e.join last line [(right ++ mark, left)]).bind fun t => .ok (e.rename t [(right, right ++ mark)])

/-- auxiliaries_system.hpp 195-198, 249-252, 305-308, 363-366: from `_3_1` to `_3_3`. -/
def step33 (e : AuxEnv ν α β) (up down left right mark : String) (this site line : Tensor ν NoSymmetry α) :
    Outcome (Tensor ν NoSymmetry α) :=
  (e.join this site [(right ++ "2", left), (down, up)]).bind fun t =>
  (e.join (e.rename t [(right, right ++ "2")]) line [(right ++ mark, left), (down, up)]).bind fun t =>
  .ok (e.rename t [(right, right ++ mark)])

/-- `left_to_right_3_3[i][k - 1]` (auxiliaries_system.hpp 164-214) for a row with the given lines above and
below; the names of the directions are parameters so that the other three sweeps are the same function. -/
def sweep33 (e : AuxEnv ν α β) (up down left right mark mark' : String)
    (near sites far : List (Tensor ν NoSymmetry α)) : ℕ → Outcome (Tensor ν NoSymmetry α)
  | 0 => .ok oneTensor
  | k + 1 =>
    (sweep33 e up down left right mark mark' near sites far k).bind fun last =>
    (lineAt near k).bind fun line =>
    (step31 e left right mark last line).bind fun this =>
    (lineAt sites k).bind fun site =>
    (lineAt far k).bind fun line' => step33 e up down left right mark' this site line'

/-- `left_to_right_3_1[i][k]`, `k` from zero -/
def sweep31 (e : AuxEnv ν α β) (up down left right mark mark' : String)
    (near sites far : List (Tensor ν NoSymmetry α)) (k : ℕ) : Outcome (Tensor ν NoSymmetry α) :=
  (sweep33 e up down left right mark mark' near sites far k).bind fun last =>
  (lineAt near k).bind fun line => step31 e left right mark last line

/-- `map::at` with the keys from `low` to `high - 1` -/
def keyAt (low high k : ℤ) : Outcome Unit :=
  if low ≤ k ∧ k < high then .ok () else .error "map::at"

/-- auxiliaries_system.hpp 164-214: `left_to_right_3_1.at(i).at(j)` -/
def leftToRight31 (e : AuxEnv ν α β) (a : AuxLattice ν α) (i j : ℤ) : Outcome (Tensor ν NoSymmetry α) :=
  (keyAt 0 a.M i).bind fun _ => (keyAt (-1) a.N j).bind fun _ =>
  if j = -1 then .ok oneTensor
  else
    (upToDown e a i.toNat).bind fun up =>
    (downToUp e a (a.M - (i.toNat + 1))).bind fun down =>
    sweep31 e "U" "D" "L" "R" "1" "3" up (a.row i.toNat) down j.toNat

/-- auxiliaries_system.hpp 216-266: `right_to_left_3_1.at(i).at(j)`; the line below comes first. -/
def rightToLeft31 (e : AuxEnv ν α β) (a : AuxLattice ν α) (i j : ℤ) : Outcome (Tensor ν NoSymmetry α) :=
  (keyAt 0 a.M i).bind fun _ => (keyAt 0 (a.N + 1) j).bind fun _ =>
  if j = a.N then .ok oneTensor
  else
    (upToDown e a i.toNat).bind fun up =>
    (downToUp e a (a.M - (i.toNat + 1))).bind fun down =>
    sweep31 e "D" "U" "R" "L" "3" "1" down.reverse (a.row i.toNat).reverse up.reverse (a.N - 1 - j.toNat)

/-- auxiliaries_system.hpp 216-266: `right_to_left_3_3.at(i).at(j)` -/
def rightToLeft33 (e : AuxEnv ν α β) (a : AuxLattice ν α) (i j : ℤ) : Outcome (Tensor ν NoSymmetry α) :=
  (keyAt 0 a.M i).bind fun _ => (keyAt 0 (a.N + 1) j).bind fun _ =>
  if j = a.N then .ok oneTensor
  else
    (upToDown e a i.toNat).bind fun up =>
    (downToUp e a (a.M - (i.toNat + 1))).bind fun down =>
    sweep33 e "D" "U" "R" "L" "3" "1" down.reverse (a.row i.toNat).reverse up.reverse (a.N - j.toNat)

/-- auxiliaries_system.hpp 274-324: `up_to_down_3_1.at(i).at(j)` -/
def upToDown31 (e : AuxEnv ν α β) (a : AuxLattice ν α) (i j : ℤ) : Outcome (Tensor ν NoSymmetry α) :=
  (keyAt (-1) a.M i).bind fun _ => (keyAt 0 a.N j).bind fun _ =>
  if i = -1 then .ok oneTensor
  else
    (leftToRight e a j.toNat).bind fun left =>
    (rightToLeft e a (a.N - (j.toNat + 1))).bind fun right =>
    sweep31 e "L" "R" "U" "D" "1" "3" left (a.column j.toNat) right i.toNat

/-- auxiliaries_system.hpp 330-380: `down_to_up_3_1.at(i).at(j)` -/
def downToUp31 (e : AuxEnv ν α β) (a : AuxLattice ν α) (i j : ℤ) : Outcome (Tensor ν NoSymmetry α) :=
  (keyAt 0 (a.M + 1) i).bind fun _ => (keyAt 0 a.N j).bind fun _ =>
  if i = a.M then .ok oneTensor
  else
    (leftToRight e a j.toNat).bind fun left =>
    (rightToLeft e a (a.N - (j.toNat + 1))).bind fun right =>
    sweep31 e "R" "L" "D" "U" "3" "1" right.reverse (a.column j.toNat).reverse left.reverse
      (a.M - 1 - i.toNat)

/-! ## The calls -/

/-- auxiliaries_system.hpp 388-405 `operator()(holes, hint_char)` -/
def auxHoles (e : AuxEnv ν α β) (a : AuxLattice ν α) (holes : List Pos) (hint : Char) :
    Outcome (Tensor ν NoSymmetry α) :=
  match holes with
  | [] => rightToLeft33 e a 0 0
  | [(i, j)] =>
    if hint = 'v' then
      (upToDown31 e a i j).bind fun t =>
      (downToUp31 e a i j).bind fun t' =>
      (e.join t t' [("D1", "U1"), ("D3", "U3")]).bind fun t =>
      .ok (e.rename t [("D2", "U0"), ("R", "L0"), ("L", "R0"), ("U2", "D0")])
    else
      (leftToRight31 e a i j).bind fun t =>
      (rightToLeft31 e a i j).bind fun t' =>
      (e.join t t' [("R1", "L1"), ("R3", "L3")]).bind fun t =>
      .ok (e.rename t [("R2", "L0"), ("D", "U0"), ("U", "D0"), ("L2", "R0")])
  | _ => .error "Unsupported holes style"

/-- auxiliaries_system.hpp 412-424: one tensor replaced, in the directions of a row. -/
def replaceOne (e : AuxEnv ν α β) (up down left right : String) (before new after : Tensor ν NoSymmetry α) :
    Outcome (Tensor ν NoSymmetry α) :=
  (e.join before (e.rename new [(right, right ++ "2")]) [(right ++ "2", left), (down, up)]).bind fun t =>
  e.join t after [(right ++ "1", left ++ "1"), (right ++ "2", left ++ "2"), (right ++ "3", left ++ "3"),
    (down, up)]

/-- auxiliaries_system.hpp 435-440, 454-459: two neighbouring tensors replaced, in the directions of a
row. -/
def replaceTwo (e : AuxEnv ν α β) (up down left right : String)
    (before new1 far near new2 after : Tensor ν NoSymmetry α) : Outcome (Tensor ν NoSymmetry α) :=
  (e.join before (e.rename new1 [(right, right ++ "2")]) [(right ++ "2", left), (down, up)]).bind fun t =>
  (e.join t (e.rename far [(right, right ++ "3")]) [(right ++ "3", left), (down, up)]).bind fun t =>
  (e.join t (e.rename near [(right, right ++ "1")]) [(right ++ "1", left)]).bind fun t =>
  (e.join t (e.rename new2 [(right, right ++ "2")]) [(right ++ "2", left), (down, up)]).bind fun t =>
  e.join t after [(right ++ "1", left ++ "1"), (right ++ "2", left ++ "2"), (right ++ "3", left ++ "3"),
    (down, up)]

/-- auxiliaries_system.hpp 407-467 `operator()(replacement, hint_char)`.  The map is ordered by positions,
so the branches for the second tensor before the first (442-449, 461-468) are not reached. -/
def auxReplace (e : AuxEnv ν α β) (a : AuxLattice ν α) (replacement : List (Pos × Tensor ν NoSymmetry α))
    (hint : Char) : Outcome α :=
  match replacement with
  | [] => (rightToLeft33 e a 0 0).bind onlyElement
  | [((i, j), new)] =>
    if hint = 'v' then
      (upToDown31 e a i j).bind fun t =>
      (downToUp31 e a i j).bind fun t' =>
      (replaceOne e "L" "R" "U" "D" t new t').bind onlyElement
    else
      (leftToRight31 e a i j).bind fun t =>
      (rightToLeft31 e a i j).bind fun t' =>
      (replaceOne e "U" "D" "L" "R" t new t').bind onlyElement
  | [((x1, y1), new1), ((x2, y2), new2)] =>
    if x1 = x2 ∧ y1 + 1 = y2 then
      (leftToRight31 e a x1 y1).bind fun t =>
      (downToUp e a (a.M - (x1.toNat + 1))).bind fun down =>
      (lineAt down y1).bind fun far =>
      (upToDown e a x2.toNat).bind fun up =>
      (lineAt up y2).bind fun near =>
      (rightToLeft31 e a x2 y2).bind fun t' =>
      (replaceTwo e "U" "D" "L" "R" t new1 far near new2 t').bind onlyElement
    else if y1 = y2 ∧ x1 + 1 = x2 then
      (upToDown31 e a x1 y1).bind fun t =>
      (rightToLeft e a (a.N - (y1.toNat + 1))).bind fun right =>
      (lineAt right x1).bind fun far =>
      (leftToRight e a y2.toNat).bind fun left =>
      (lineAt left x2).bind fun near =>
      (downToUp31 e a x2 y2).bind fun t' =>
      (replaceTwo e "L" "R" "U" "D" t new1 far near new2 t').bind onlyElement
    else .error "Unsupported replacement style"
  | _ => .error "Unsupported replacement style"

end TAT
