import Verif.Io.Text
import Verif.Contract.Spec
import Verif.EdgeMisc.Model
import Verif.Scalar.Model
import Mathlib.Data.String.Basic
import Mathlib.Data.List.Lex
import Mathlib.Data.Rat.Floor

/-!
A test of the model, not a proof, and no claim rests on it.

The program test/simple_test.cpp:31-333 prints tensors, and its output is recorded in
test/simple_test.out.  Here the model is run on the inputs of that program and the text it prints is
compared with the recorded lines, character by character.  `#guard` evaluates the comparison when
this file is built.

There are 116 such lines and 68 are compared.  Left out are
* 33 and 37-42, with numbers that are not whole (a norm of order 2, divisions, steps of 0.1);
* 114-141, of the singular value decomposition, whose numbers depend on LAPACK;
* 17, a block printed alone, and 18, 22 and 23, tensors made from one number;
* 25 and 26, conversions to and from complex numbers;
* 46, 48 and 50-52 and 54, read back from the binary form or complex, and 49, of complex integers.

Scalars are integers here and `double` or `std::complex<double>` there, so the comparison is about
whole numbers only; the brackets of the complex numbers in the lines 6, 66 and 67 are added by hand.
-/

namespace TAT.Recorded
abbrev Nm := List Char
def n (s : String) : Nm := s.toList
def A : TextScalar ℤ := ⟨printInt, fun s => (0, s)⟩
def env {σ : Type} : Env σ ℤ := ⟨⟨8, 32768, 1, 1⟩, fun _ _ => 555, fun _ => true⟩
def junk {σ : Type} : List σ → ℕ → ℤ := fun _ _ => 777
def ce {σ : Type} : ContractEnv σ ℤ := ⟨refGemm, env, env, env, fun _ _ => 77, fun _ _ => 77⟩
def cn : ContractNames Nm := ⟨n ",Contract_0", n ",Contract_1", n ",Contract_2"⟩
def mk {σ : Type} [TatSym σ] (names : List String) (edges : List (Edge σ)) : Outcome (Tensor Nm σ ℤ) := mkTensor junk (names.map n) edges
def dense (names : List String) (dims : List ℕ) : Outcome (Tensor Nm NoSymmetry ℤ) := mk names (dims.map fun d => ⟨false, [(0, d)]⟩)
def fill {σ : Type} (a : ℤ) (x : Outcome (Tensor Nm σ ℤ)) : Outcome (Tensor Nm σ ℤ) := x.bind fun t => .ok (testFill a 1 t)
def pr {σ : Type} [TatSym σ] [TextSym σ] (x : Outcome (Tensor Nm σ ℤ)) : String :=
  match x.bind (printTensor console A) with | .ok l => String.ofList l | .error s => "error " ++ s | .ub => "ub"
def em {σ : Type} [TatSym σ] (a : Bool) (l : List (σ × ℕ)) : Edge σ := ⟨a, OMap.ofList l⟩
def u (i : ℤ) : U1Symmetry := ⟨BitVec.ofInt 32 i⟩
def f (i : ℤ) : FermiSymmetry := ⟨BitVec.ofInt 16 i⟩
def fu (i j : ℤ) : FermiU1Symmetry := ⟨BitVec.ofInt 16 i, BitVec.ofInt 32 j⟩
def z (b : Bool) : Z2Symmetry := ⟨b⟩
def uE (l : List (ℤ × ℕ)) : Edge U1Symmetry := em false (l.map fun x => (u x.1, x.2))
def fE (a : Bool) (l : List (ℤ × ℕ)) : Edge FermiSymmetry := em a (l.map fun x => (f x.1, x.2))
def fuE (a : Bool) (l : List ((ℤ × ℤ) × ℕ)) : Edge FermiU1Symmetry := em a (l.map fun x => (fu x.1.1 x.1.2, x.2))
def zE (l : List (ℕ × ℕ)) : Edge Z2Symmetry := em false (l.map fun x => (z (x.1 == 1), x.2))
def lru : List (Edge U1Symmetry) := [uE [(-1, 3), (0, 1), (1, 2)], uE [(-1, 1), (0, 2), (1, 3)], uE [(-1, 2), (0, 3), (1, 1)]]
def lruF (a : Bool) : List (Edge FermiSymmetry) := [fE a [(-1, 3), (0, 1), (1, 2)], fE a [(-1, 1), (0, 2), (1, 3)], fE a [(-1, 2), (0, 3), (1, 1)]]
def LRU := ["Left", "Right", "Up"]
def tr {σ : Type} [TatSym σ] (x : Outcome (Tensor Nm σ ℤ)) (l : List String) : Outcome (Tensor Nm σ ℤ) := x.bind fun t => transpose env t (l.map n)
def ct {σ : Type} [TatSym σ] (x y : Outcome (Tensor Nm σ ℤ)) (l : List (String × String)) : Outcome (Tensor Nm σ ℤ) :=
  x.bind fun t => y.bind fun t' => contract ce cn t t' (l.map fun p => (n p.1, n p.2))
def show' (x : Outcome ℤ) : String := match x with | .ok l => toString l | .error s => "error " ++ s | .ub => "ub"
def maxAbs {σ : Type} (x : Outcome (Tensor Nm σ ℤ)) : String := show' (x.bind fun t => .ok (normMax (fun i => |i|) t))
def sub {σ : Type} [TatSym σ] (x y : Outcome (Tensor Nm σ ℤ)) : Outcome (Tensor Nm σ ℤ) :=
  x.bind fun a => y.bind fun b => scalarOp env junk id id (· - ·) a b
def fermiEdges : List (Edge FermiU1Symmetry) :=
  [fuE false [((0, 0), 1), ((1, 1), 2)], fuE true [((-1, -1), 1), ((-2, 0), 3), ((0, 0), 2)], fuE false [((0, 0), 3), ((1, -1), 1)]]
def mg {σ : Type} [TatSym σ] (x : Outcome (Tensor Nm σ ℤ)) (l : List (String × List String)) : Outcome (Tensor Nm σ ℤ) :=
  x.bind fun t => mergeEdge env t (OMap.ofList (l.map fun p => (n p.1, p.2.map n)))
def sp {σ : Type} [TatSym σ] (x : Outcome (Tensor Nm σ ℤ)) (l : List (String × List (String × List (σ × ℕ)))) : Outcome (Tensor Nm σ ℤ) :=
  x.bind fun t => splitEdge env t (OMap.ofList (l.map fun p => (n p.1, p.2.map fun q => (n q.1, OMap.ofList q.2))))
def rn {σ : Type} (x : Outcome (Tensor Nm σ ℤ)) (l : List (String × String)) : Outcome (Tensor Nm σ ℤ) :=
  x.bind fun t => .ok (edgeRename t (OMap.ofList (l.map fun p => (n p.1, n p.2))))
def opU {σ : Type} [TatSym σ] (x : Outcome (Tensor Nm σ ℤ)) (sy : ℤ → σ) (rev : List String) : Outcome (Tensor Nm σ ℤ) :=
  x.bind fun t => edgeOperator env t
    { rename := [(n "Right", n "Right1")],
      split := [(n "Down", [(n "Down1", OMap.ofList [(sy 0, 1), (sy 1, 2)]), (n "Down2", OMap.ofList [(sy (-1), 1), (sy 0, 1)])])],
      reversed := rev.map n, merge := [(n "Left", [n "Left", n "Down2"])],
      newNames := [n "Down1", n "Right1", n "Up", n "Left"] }
def seqU {σ : Type} [TatSym σ] (x : Outcome (Tensor Nm σ ℤ)) (sy : ℤ → σ) (rev : List String) : Outcome (Tensor Nm σ ℤ) :=
  let b := sp (rn x [("Right", "Right1")]) [("Down", [("Down1", [(sy 0, 1), (sy 1, 2)]), ("Down2", [(sy (-1), 1), (sy 0, 1)])])]
  let b := if rev = [] then b else b.bind fun t => reverseEdge env t (rev.map n)
  mg (tr b ["Down1", "Right1", "Up", "Left", "Down2"]) [("Left", ["Left", "Down2"])]
def four {σ : Type} [TatSym σ] (sy : ℤ → σ) : Outcome (Tensor Nm σ ℤ) :=
  fill 1 (mk ["Left", "Right", "Up", "Down"] ([[(-1, 3), (0, 1), (1, 2)], [(-1, 1), (0, 4), (1, 2)], [(-1, 2), (0, 3), (1, 1)], [(-1, 1), (0, 3), (1, 2)]].map
    fun l => em false (l.map fun x => (sy x.1, x.2))))
def lru2 := fill 2 (mk LRU lru)
def iF := fill 2 (mk LRU [fE true [(-2, 3), (0, 1), (-1, 2)], fE false [(0, 2), (1, 3)], fE false [(0, 3), (1, 1)]])
def cF : Outcome (Tensor Nm FermiSymmetry ℤ) := fill 0 (mk ["A", "B", "C", "D"] [fE true [(-1, 1), (0, 1), (-2, 1)], fE false [(0, 1), (1, 2)], fE false [(0, 2), (1, 2)], fE true [(-2, 2), (-1, 1), (0, 2)]])
def dF : Outcome (Tensor Nm FermiSymmetry ℤ) := fill 0 (mk ["E", "F", "G", "H"] [fE false [(0, 2), (1, 1)], fE true [(-2, 1), (-1, 1), (0, 2)], fE true [(0, 1), (-1, 2)], fE false [(0, 2), (1, 1), (2, 2)]])
/-- What the model prints, by the number of the line in test/simple_test.out. -/
def printed : List (ℕ × String) :=
  [ (2, pr (fill 0 (dense ["Left", "Right"] [3, 4]))),
    (3, pr (dense ["Left", "Right"] [0, 3])),
    (4, pr (fill 10 (dense [] []))),
    (5, show' ((fill 10 (dense [] [])).bind fun t => constAt t [])),
    (6, "(" ++ show' ((fill 0 (dense ["Left", "Right"] [3, 4])).bind fun t => constAt t (OMap.ofList [(n "Right", (0, 2)), (n "Left", (0, 1))])) ++ ",0)"),
    (9, pr ((mk LRU [zE [(1, 3), (0, 1)], zE [(1, 1), (0, 2)], zE [(1, 2), (0, 3)]]).bind fun t => .ok (zero t))),
    (10, pr lru2),
    (11, pr ((mk LRU [uE [], uE [(-1, 1), (0, 2), (1, 3)], uE [(-1, 2), (0, 3), (1, 1)]]).bind fun t => .ok (zero t))),
    (12, pr (fill 123 (mk (σ := U1Symmetry) [] []))),
    (15, pr (fill 2 (mk LRU [fE false [(0, 1), (1, 2)], fE true [(-1, 1), (-2, 3), (0, 2)], fE false [(0, 3), (1, 1)]]))),
    (16, pr (fill 2 (mk LRU fermiEdges))),
    (19, show' ((fill 2 (mk LRU fermiEdges)).bind fun t => constAt t (OMap.ofList [(n "Left", (fu 1 1, 1)), (n "Up", (fu 1 (-1), 0)), (n "Right", (fu (-2) 0, 0))]))),
    (24, pr (fill 2 (dense ["Left", "Right"] [3, 4]))),
    (27, pr lru2),
    (30, maxAbs lru2),
    (31, show' (lru2.bind fun t => .ok (normCount (fun k => (k : ℤ)) t))),
    (32, show' (lru2.bind fun t => .ok (normSum (fun i => |i|) id t))),
    (36, pr ((fill 0 (mk ["Left", "Right", "Phy"] (List.replicate 3 (zE [(0, 2), (1, 2)])))).bind fun t => scalarNumber junk (· + 1) t)),
    (45, pr (fill 0 (dense LRU [2, 3, 4]))),
    (47, pr lru2),
    (53, pr iF),
    (57, pr (fill 0 (mk ["Left", "Right", "Phy"] [zE [(0, 1), (1, 2)], zE [(0, 3), (1, 4)], zE [(0, 5), (1, 6)]]))),
    (60, pr (fill 0 (dense ["Left", "Right"] [2, 3]))),
    (61, pr (tr (fill 0 (dense ["Left", "Right"] [2, 3])) ["Right", "Left"])),
    (62, pr (fill 0 (dense LRU [2, 3, 4]))),
    (63, pr (tr (fill 0 (dense LRU [2, 3, 4])) ["Right", "Up", "Left"])),
    (64, pr (fill 1 (mk LRU lru))),
    (65, pr (tr (fill 1 (mk LRU lru)) ["Right", "Up", "Left"])),
    (66, "(" ++ show' ((fill 1 (mk LRU lru)).bind fun t => constAt t (OMap.ofList [(n "Left", (u (-1), 0)), (n "Right", (u 1, 2)), (n "Up", (u 0, 0))])) ++ ",0)"),
    (67, "(" ++ show' ((tr (fill 1 (mk LRU lru)) ["Right", "Up", "Left"]).bind fun t => constAt t (OMap.ofList [(n "Left", (u (-1), 0)), (n "Right", (u 1, 2)), (n "Up", (u 0, 0))])) ++ ",0)"),
    (68, pr (fill 1 (mk LRU (lruF true)))),
    (69, pr (tr (fill 1 (mk LRU (lruF true))) ["Right", "Up", "Left"])),
    (70, pr (fill 1 (dense ["Down", "Up", "Left", "Right"] [2, 3, 4, 5]))),
    (71, pr (tr (fill 1 (dense ["Down", "Up", "Left", "Right"] [2, 3, 4, 5])) ["Left", "Down", "Right", "Up"])),
    (72, show' ((fill 1 (dense ["Down", "Up", "Left", "Right"] [2, 3, 4, 5])).bind fun t => constAt t (OMap.ofList [(n "Down", (0, 1)), (n "Up", (0, 1)), (n "Left", (0, 2)), (n "Right", (0, 2))]))),
    (73, show' ((tr (fill 1 (dense ["Down", "Up", "Left", "Right"] [2, 3, 4, 5])) ["Left", "Down", "Right", "Up"]).bind fun t => constAt t (OMap.ofList [(n "Down", (0, 1)), (n "Up", (0, 1)), (n "Left", (0, 2)), (n "Right", (0, 2))]))),
    (74, pr (fill 0 (dense ["l1", "l2", "l3"] [2, 3, 4]))),
    (75, pr (tr (fill 0 (dense ["l1", "l2", "l3"] [2, 3, 4])) ["l1", "l2", "l3"])),
    (76, pr (tr (fill 0 (dense ["l1", "l2", "l3"] [2, 3, 4])) ["l1", "l3", "l2"])),
    (77, pr (tr (fill 0 (dense ["l1", "l2", "l3"] [2, 3, 4])) ["l2", "l1", "l3"])),
    (78, pr (tr (fill 0 (dense ["l1", "l2", "l3"] [2, 3, 4])) ["l2", "l3", "l1"])),
    (79, pr (tr (fill 0 (dense ["l1", "l2", "l3"] [2, 3, 4])) ["l3", "l1", "l2"])),
    (80, pr (tr (fill 0 (dense ["l1", "l2", "l3"] [2, 3, 4])) ["l3", "l2", "l1"])),
    (83, pr (fill 0 (dense ["Left", "Right"] [2, 3]))),
    (84, pr (mg (fill 0 (dense ["Left", "Right"] [2, 3])) [("Merged", ["Left", "Right"])])),
    (85, pr (mg (fill 0 (dense ["Left", "Right"] [2, 3])) [("Merged", ["Right", "Left"])])),
    (86, pr (sp (mg (fill 0 (dense ["Left", "Right"] [2, 3])) [("Merged", ["Right", "Left"])]) [("Merged", [("1", [(0, 3)]), ("2", [(0, 2)])])])),
    (87, pr (fill 1 (mk LRU (lruF false)))),
    (88, pr (mg (fill 1 (mk LRU (lruF false))) [("Merged", ["Left", "Up"])])),
    (89, pr (sp (mg (fill 1 (mk LRU (lruF false))) [("Merged", ["Left", "Up"])]) [("Merged", [("Left", [(f (-1), 3), (f 0, 1), (f 1, 2)]), ("Up", [(f (-1), 2), (f 0, 3), (f 1, 1)])])])),
    (90, pr (tr (sp (mg (fill 1 (mk LRU (lruF false))) [("Merged", ["Left", "Up"])]) [("Merged", [("Left", [(f (-1), 3), (f 0, 1), (f 1, 2)]), ("Up", [(f (-1), 2), (f 0, 3), (f 1, 1)])])]) LRU)),
    (93, pr (fill 0 (dense ["A", "B"] [8, 8]))),
    (94, pr ((fill 0 (dense ["A", "B"] [8, 8])).bind fun t => edgeOperator env t
      { rename := [(n "A", n "C")], split := [(n "B", [(n "F", [(0, 2)]), (n "G", [(0, 4)])]), (n "C", [(n "D", [(0, 4)]), (n "E", [(0, 2)])])],
        reversed := [n "D", n "F"], merge := [(n "I", [n "D", n "F"]), (n "J", [n "G", n "E"])], newNames := [n "J", n "I"] })),
    (95, pr (tr (fill 0 (dense ["A", "B", "C"] [2, 3, 4])) ["B", "C", "A"])),
    (96, maxAbs (sub (opU (four u) u []) (seqU (four u) u []))),
    (97, maxAbs (sub (opU (four f) f ["Left"]) (seqU (four f) f ["Left"]))),
    (98, pr (opU (four f) f ["Left"])),
    (101, pr (fill 0 (dense ["A", "B"] [2, 2]))),
    (102, pr (fill 0 (dense ["C", "D"] [2, 2]))),
    (103, pr (ct (fill 0 (dense ["A", "B"] [2, 2])) (fill 0 (dense ["C", "D"] [2, 2])) [("A", "C")])),
    (104, pr (ct (fill 0 (dense ["A", "B"] [2, 2])) (fill 0 (dense ["C", "D"] [2, 2])) [("A", "D")])),
    (105, pr (ct (fill 0 (dense ["A", "B"] [2, 2])) (fill 0 (dense ["C", "D"] [2, 2])) [("B", "C")])),
    (106, pr (ct (fill 0 (dense ["A", "B"] [2, 2])) (fill 0 (dense ["C", "D"] [2, 2])) [("B", "D")])),
    (107, pr (ct (fill 0 (dense ["A", "B", "C", "D"] [1, 2, 3, 4])) (fill 0 (dense ["E", "F", "G", "H"] [3, 1, 2, 4])) [("B", "G"), ("D", "H")])),
    (108, pr cF),
    (109, pr dF),
    (110, pr (ct cF dF [("B", "G"), ("D", "H")])),
    (111, pr (ct (tr cF ["A", "C", "B", "D"]) (tr dF ["G", "H", "E", "F"]) [("B", "G"), ("D", "H")])) ]

/-- The lines of test/simple_test.out. -/
def recorded : List (ℕ × String) :=
  [
    (2, "{\x1b[32mnames\x1b[0m:[Left,Right],\x1b[32medges\x1b[0m:[3,4],\x1b[32mblocks\x1b[0m:[0,1,2,3,4,5,6,7,8,9,10,11]}"),
    (3, "{\x1b[32mnames\x1b[0m:[Left,Right],\x1b[32medges\x1b[0m:[0,3],\x1b[32mblocks\x1b[0m:[]}"),
    (4, "{\x1b[32mnames\x1b[0m:[],\x1b[32medges\x1b[0m:[],\x1b[32mblocks\x1b[0m:[10]}"),
    (5, "10"),
    (6, "(6,0)"),
    (9, "{\x1b[32mnames\x1b[0m:[Left,Right,Up],\x1b[32medges\x1b[0m:[{0:1,1:3},{0:2,1:1},{0:3,1:2}],\x1b[32mblocks\x1b[0m:{\x1b[33m[0,0,0]\x1b[0m:[0,0,0,0,0,0],\x1b[33m[0,1,1]\x1b[0m:[0,0],\x1b[33m[1,0,1]\x1b[0m:[0,0,0,0,0,0,0,0,0,0,0,0],\x1b[33m[1,1,0]\x1b[0m:[0,0,0,0,0,0,0,0,0]}}"),
    (10, "{\x1b[32mnames\x1b[0m:[Left,Right,Up],\x1b[32medges\x1b[0m:[{-1:3,0:1,1:2},{-1:1,0:2,1:3},{-1:2,0:3,1:1}],\x1b[32mblocks\x1b[0m:{\x1b[33m[-1,0,1]\x1b[0m:[2,3,4,5,6,7],\x1b[33m[-1,1,0]\x1b[0m:[8,9,10,11,12,13,14,15,16,17,18,19,20,21,22,23,24,25,26,27,28,29,30,31,32,33,34],\x1b[33m[0,-1,1]\x1b[0m:[35],\x1b[33m[0,0,0]\x1b[0m:[36,37,38,39,40,41],\x1b[33m[0,1,-1]\x1b[0m:[42,43,44,45,46,47],\x1b[33m[1,-1,0]\x1b[0m:[48,49,50,51,52,53],\x1b[33m[1,0,-1]\x1b[0m:[54,55,56,57,58,59,60,61]}}"),
    (11, "{\x1b[32mnames\x1b[0m:[Left,Right,Up],\x1b[32medges\x1b[0m:[{},{},{}],\x1b[32mblocks\x1b[0m:{}}"),
    (12, "{\x1b[32mnames\x1b[0m:[],\x1b[32medges\x1b[0m:[],\x1b[32mblocks\x1b[0m:{\x1b[33m[]\x1b[0m:[123]}}"),
    (15, "{\x1b[32mnames\x1b[0m:[Left,Right,Up],\x1b[32medges\x1b[0m:[{arrow:0,map:{0:1,1:2}},{arrow:1,map:{-2:3,-1:1,0:2}},{arrow:0,map:{0:3,1:1}}],\x1b[32mblocks\x1b[0m:{\x1b[33m[0,-1,1]\x1b[0m:[2],\x1b[33m[0,0,0]\x1b[0m:[3,4,5,6,7,8],\x1b[33m[1,-2,1]\x1b[0m:[9,10,11,12,13,14],\x1b[33m[1,-1,0]\x1b[0m:[15,16,17,18,19,20]}}"),
    (16, "{\x1b[32mnames\x1b[0m:[Left,Right,Up],\x1b[32medges\x1b[0m:[{arrow:0,map:{(0,0):1,(1,1):2}},{arrow:1,map:{(-2,0):3,(-1,-1):1,(0,0):2}},{arrow:0,map:{(0,0):3,(1,-1):1}}],\x1b[32mblocks\x1b[0m:{\x1b[33m[(0,0),(0,0),(0,0)]\x1b[0m:[2,3,4,5,6,7],\x1b[33m[(1,1),(-2,0),(1,-1)]\x1b[0m:[8,9,10,11,12,13],\x1b[33m[(1,1),(-1,-1),(0,0)]\x1b[0m:[14,15,16,17,18,19]}}"),
    (19, "11"),
    (24, "{\x1b[32mnames\x1b[0m:[Left,Right],\x1b[32medges\x1b[0m:[3,4],\x1b[32mblocks\x1b[0m:[2,3,4,5,6,7,8,9,10,11,12,13]}"),
    (27, "{\x1b[32mnames\x1b[0m:[Left,Right,Up],\x1b[32medges\x1b[0m:[{-1:3,0:1,1:2},{-1:1,0:2,1:3},{-1:2,0:3,1:1}],\x1b[32mblocks\x1b[0m:{\x1b[33m[-1,0,1]\x1b[0m:[2,3,4,5,6,7],\x1b[33m[-1,1,0]\x1b[0m:[8,9,10,11,12,13,14,15,16,17,18,19,20,21,22,23,24,25,26,27,28,29,30,31,32,33,34],\x1b[33m[0,-1,1]\x1b[0m:[35],\x1b[33m[0,0,0]\x1b[0m:[36,37,38,39,40,41],\x1b[33m[0,1,-1]\x1b[0m:[42,43,44,45,46,47],\x1b[33m[1,-1,0]\x1b[0m:[48,49,50,51,52,53],\x1b[33m[1,0,-1]\x1b[0m:[54,55,56,57,58,59,60,61]}}"),
    (30, "61"),
    (31, "60"),
    (32, "1890"),
    (36, "{\x1b[32mnames\x1b[0m:[Left,Right,Phy],\x1b[32medges\x1b[0m:[{0:2,1:2},{0:2,1:2},{0:2,1:2}],\x1b[32mblocks\x1b[0m:{\x1b[33m[0,0,0]\x1b[0m:[1,2,3,4,5,6,7,8],\x1b[33m[0,1,1]\x1b[0m:[9,10,11,12,13,14,15,16],\x1b[33m[1,0,1]\x1b[0m:[17,18,19,20,21,22,23,24],\x1b[33m[1,1,0]\x1b[0m:[25,26,27,28,29,30,31,32]}}"),
    (45, "{\x1b[32mnames\x1b[0m:[Left,Right,Up],\x1b[32medges\x1b[0m:[2,3,4],\x1b[32mblocks\x1b[0m:[0,1,2,3,4,5,6,7,8,9,10,11,12,13,14,15,16,17,18,19,20,21,22,23]}"),
    (47, "{\x1b[32mnames\x1b[0m:[Left,Right,Up],\x1b[32medges\x1b[0m:[{-1:3,0:1,1:2},{-1:1,0:2,1:3},{-1:2,0:3,1:1}],\x1b[32mblocks\x1b[0m:{\x1b[33m[-1,0,1]\x1b[0m:[2,3,4,5,6,7],\x1b[33m[-1,1,0]\x1b[0m:[8,9,10,11,12,13,14,15,16,17,18,19,20,21,22,23,24,25,26,27,28,29,30,31,32,33,34],\x1b[33m[0,-1,1]\x1b[0m:[35],\x1b[33m[0,0,0]\x1b[0m:[36,37,38,39,40,41],\x1b[33m[0,1,-1]\x1b[0m:[42,43,44,45,46,47],\x1b[33m[1,-1,0]\x1b[0m:[48,49,50,51,52,53],\x1b[33m[1,0,-1]\x1b[0m:[54,55,56,57,58,59,60,61]}}"),
    (53, "{\x1b[32mnames\x1b[0m:[Left,Right,Up],\x1b[32medges\x1b[0m:[{arrow:1,map:{-2:3,-1:2,0:1}},{arrow:0,map:{0:2,1:3}},{arrow:0,map:{0:3,1:1}}],\x1b[32mblocks\x1b[0m:{\x1b[33m[-2,1,1]\x1b[0m:[2,3,4,5,6,7,8,9,10],\x1b[33m[-1,0,1]\x1b[0m:[11,12,13,14],\x1b[33m[-1,1,0]\x1b[0m:[15,16,17,18,19,20,21,22,23,24,25,26,27,28,29,30,31,32],\x1b[33m[0,0,0]\x1b[0m:[33,34,35,36,37,38]}}"),
    (57, "{\x1b[32mnames\x1b[0m:[Left,Right,Phy],\x1b[32medges\x1b[0m:[{0:1,1:2},{0:3,1:4},{0:5,1:6}],\x1b[32mblocks\x1b[0m:{\x1b[33m[0,0,0]\x1b[0m:[0,1,2,3,4,5,6,7,8,9,10,11,12,13,14],\x1b[33m[0,1,1]\x1b[0m:[15,16,17,18,19,20,21,22,23,24,25,26,27,28,29,30,31,32,33,34,35,36,37,38],\x1b[33m[1,0,1]\x1b[0m:[39,40,41,42,43,44,45,46,47,48,49,50,51,52,53,54,55,56,57,58,59,60,61,62,63,64,65,66,67,68,69,70,71,72,73,74],\x1b[33m[1,1,0]\x1b[0m:[75,76,77,78,79,80,81,82,83,84,85,86,87,88,89,90,91,92,93,94,95,96,97,98,99,100,101,102,103,104,105,106,107,108,109,110,111,112,113,114]}}"),
    (60, "{\x1b[32mnames\x1b[0m:[Left,Right],\x1b[32medges\x1b[0m:[2,3],\x1b[32mblocks\x1b[0m:[0,1,2,3,4,5]}"),
    (61, "{\x1b[32mnames\x1b[0m:[Right,Left],\x1b[32medges\x1b[0m:[3,2],\x1b[32mblocks\x1b[0m:[0,3,1,4,2,5]}"),
    (62, "{\x1b[32mnames\x1b[0m:[Left,Right,Up],\x1b[32medges\x1b[0m:[2,3,4],\x1b[32mblocks\x1b[0m:[0,1,2,3,4,5,6,7,8,9,10,11,12,13,14,15,16,17,18,19,20,21,22,23]}"),
    (63, "{\x1b[32mnames\x1b[0m:[Right,Up,Left],\x1b[32medges\x1b[0m:[3,4,2],\x1b[32mblocks\x1b[0m:[0,12,1,13,2,14,3,15,4,16,5,17,6,18,7,19,8,20,9,21,10,22,11,23]}"),
    (64, "{\x1b[32mnames\x1b[0m:[Left,Right,Up],\x1b[32medges\x1b[0m:[{-1:3,0:1,1:2},{-1:1,0:2,1:3},{-1:2,0:3,1:1}],\x1b[32mblocks\x1b[0m:{\x1b[33m[-1,0,1]\x1b[0m:[1,2,3,4,5,6],\x1b[33m[-1,1,0]\x1b[0m:[7,8,9,10,11,12,13,14,15,16,17,18,19,20,21,22,23,24,25,26,27,28,29,30,31,32,33],\x1b[33m[0,-1,1]\x1b[0m:[34],\x1b[33m[0,0,0]\x1b[0m:[35,36,37,38,39,40],\x1b[33m[0,1,-1]\x1b[0m:[41,42,43,44,45,46],\x1b[33m[1,-1,0]\x1b[0m:[47,48,49,50,51,52],\x1b[33m[1,0,-1]\x1b[0m:[53,54,55,56,57,58,59,60]}}"),
    (65, "{\x1b[32mnames\x1b[0m:[Right,Up,Left],\x1b[32medges\x1b[0m:[{-1:1,0:2,1:3},{-1:2,0:3,1:1},{-1:3,0:1,1:2}],\x1b[32mblocks\x1b[0m:{\x1b[33m[-1,0,1]\x1b[0m:[47,50,48,51,49,52],\x1b[33m[-1,1,0]\x1b[0m:[34],\x1b[33m[0,-1,1]\x1b[0m:[53,57,54,58,55,59,56,60],\x1b[33m[0,0,0]\x1b[0m:[35,36,37,38,39,40],\x1b[33m[0,1,-1]\x1b[0m:[1,3,5,2,4,6],\x1b[33m[1,-1,0]\x1b[0m:[41,42,43,44,45,46],\x1b[33m[1,0,-1]\x1b[0m:[7,16,25,8,17,26,9,18,27,10,19,28,11,20,29,12,21,30,13,22,31,14,23,32,15,24,33]}}"),
    (66, "(13,0)"),
    (67, "(13,0)"),
    (68, "{\x1b[32mnames\x1b[0m:[Left,Right,Up],\x1b[32medges\x1b[0m:[{arrow:1,map:{-1:3,0:1,1:2}},{arrow:1,map:{-1:1,0:2,1:3}},{arrow:1,map:{-1:2,0:3,1:1}}],\x1b[32mblocks\x1b[0m:{\x1b[33m[-1,0,1]\x1b[0m:[1,2,3,4,5,6],\x1b[33m[-1,1,0]\x1b[0m:[7,8,9,10,11,12,13,14,15,16,17,18,19,20,21,22,23,24,25,26,27,28,29,30,31,32,33],\x1b[33m[0,-1,1]\x1b[0m:[34],\x1b[33m[0,0,0]\x1b[0m:[35,36,37,38,39,40],\x1b[33m[0,1,-1]\x1b[0m:[41,42,43,44,45,46],\x1b[33m[1,-1,0]\x1b[0m:[47,48,49,50,51,52],\x1b[33m[1,0,-1]\x1b[0m:[53,54,55,56,57,58,59,60]}}"),
    (69, "{\x1b[32mnames\x1b[0m:[Right,Up,Left],\x1b[32medges\x1b[0m:[{arrow:1,map:{-1:1,0:2,1:3}},{arrow:1,map:{-1:2,0:3,1:1}},{arrow:1,map:{-1:3,0:1,1:2}}],\x1b[32mblocks\x1b[0m:{\x1b[33m[-1,0,1]\x1b[0m:[-47,-50,-48,-51,-49,-52],\x1b[33m[-1,1,0]\x1b[0m:[34],\x1b[33m[0,-1,1]\x1b[0m:[-53,-57,-54,-58,-55,-59,-56,-60],\x1b[33m[0,0,0]\x1b[0m:[35,36,37,38,39,40],\x1b[33m[0,1,-1]\x1b[0m:[-1,-3,-5,-2,-4,-6],\x1b[33m[1,-1,0]\x1b[0m:[41,42,43,44,45,46],\x1b[33m[1,0,-1]\x1b[0m:[-7,-16,-25,-8,-17,-26,-9,-18,-27,-10,-19,-28,-11,-20,-29,-12,-21,-30,-13,-22,-31,-14,-23,-32,-15,-24,-33]}}"),
    (70, "{\x1b[32mnames\x1b[0m:[Down,Up,Left,Right],\x1b[32medges\x1b[0m:[2,3,4,5],\x1b[32mblocks\x1b[0m:[1,2,3,4,5,6,7,8,9,10,11,12,13,14,15,16,17,18,19,20,21,22,23,24,25,26,27,28,29,30,31,32,33,34,35,36,37,38,39,40,41,42,43,44,45,46,47,48,49,50,51,52,53,54,55,56,57,58,59,60,61,62,63,64,65,66,67,68,69,70,71,72,73,74,75,76,77,78,79,80,81,82,83,84,85,86,87,88,89,90,91,92,93,94,95,96,97,98,99,100,101,102,103,104,105,106,107,108,109,110,111,112,113,114,115,116,117,118,119,120]}"),
    (71, "{\x1b[32mnames\x1b[0m:[Left,Down,Right,Up],\x1b[32medges\x1b[0m:[4,2,5,3],\x1b[32mblocks\x1b[0m:[1,21,41,2,22,42,3,23,43,4,24,44,5,25,45,61,81,101,62,82,102,63,83,103,64,84,104,65,85,105,6,26,46,7,27,47,8,28,48,9,29,49,10,30,50,66,86,106,67,87,107,68,88,108,69,89,109,70,90,110,11,31,51,12,32,52,13,33,53,14,34,54,15,35,55,71,91,111,72,92,112,73,93,113,74,94,114,75,95,115,16,36,56,17,37,57,18,38,58,19,39,59,20,40,60,76,96,116,77,97,117,78,98,118,79,99,119,80,100,120]}"),
    (72, "93"),
    (73, "93"),
    (74, "{\x1b[32mnames\x1b[0m:[l1,l2,l3],\x1b[32medges\x1b[0m:[2,3,4],\x1b[32mblocks\x1b[0m:[0,1,2,3,4,5,6,7,8,9,10,11,12,13,14,15,16,17,18,19,20,21,22,23]}"),
    (75, "{\x1b[32mnames\x1b[0m:[l1,l2,l3],\x1b[32medges\x1b[0m:[2,3,4],\x1b[32mblocks\x1b[0m:[0,1,2,3,4,5,6,7,8,9,10,11,12,13,14,15,16,17,18,19,20,21,22,23]}"),
    (76, "{\x1b[32mnames\x1b[0m:[l1,l3,l2],\x1b[32medges\x1b[0m:[2,4,3],\x1b[32mblocks\x1b[0m:[0,4,8,1,5,9,2,6,10,3,7,11,12,16,20,13,17,21,14,18,22,15,19,23]}"),
    (77, "{\x1b[32mnames\x1b[0m:[l2,l1,l3],\x1b[32medges\x1b[0m:[3,2,4],\x1b[32mblocks\x1b[0m:[0,1,2,3,12,13,14,15,4,5,6,7,16,17,18,19,8,9,10,11,20,21,22,23]}"),
    (78, "{\x1b[32mnames\x1b[0m:[l2,l3,l1],\x1b[32medges\x1b[0m:[3,4,2],\x1b[32mblocks\x1b[0m:[0,12,1,13,2,14,3,15,4,16,5,17,6,18,7,19,8,20,9,21,10,22,11,23]}"),
    (79, "{\x1b[32mnames\x1b[0m:[l3,l1,l2],\x1b[32medges\x1b[0m:[4,2,3],\x1b[32mblocks\x1b[0m:[0,4,8,12,16,20,1,5,9,13,17,21,2,6,10,14,18,22,3,7,11,15,19,23]}"),
    (80, "{\x1b[32mnames\x1b[0m:[l3,l2,l1],\x1b[32medges\x1b[0m:[4,3,2],\x1b[32mblocks\x1b[0m:[0,12,4,16,8,20,1,13,5,17,9,21,2,14,6,18,10,22,3,15,7,19,11,23]}"),
    (83, "{\x1b[32mnames\x1b[0m:[Left,Right],\x1b[32medges\x1b[0m:[2,3],\x1b[32mblocks\x1b[0m:[0,1,2,3,4,5]}"),
    (84, "{\x1b[32mnames\x1b[0m:[Merged],\x1b[32medges\x1b[0m:[6],\x1b[32mblocks\x1b[0m:[0,1,2,3,4,5]}"),
    (85, "{\x1b[32mnames\x1b[0m:[Merged],\x1b[32medges\x1b[0m:[6],\x1b[32mblocks\x1b[0m:[0,3,1,4,2,5]}"),
    (86, "{\x1b[32mnames\x1b[0m:[1,2],\x1b[32medges\x1b[0m:[3,2],\x1b[32mblocks\x1b[0m:[0,3,1,4,2,5]}"),
    (87, "{\x1b[32mnames\x1b[0m:[Left,Right,Up],\x1b[32medges\x1b[0m:[{arrow:0,map:{-1:3,0:1,1:2}},{arrow:0,map:{-1:1,0:2,1:3}},{arrow:0,map:{-1:2,0:3,1:1}}],\x1b[32mblocks\x1b[0m:{\x1b[33m[-1,0,1]\x1b[0m:[1,2,3,4,5,6],\x1b[33m[-1,1,0]\x1b[0m:[7,8,9,10,11,12,13,14,15,16,17,18,19,20,21,22,23,24,25,26,27,28,29,30,31,32,33],\x1b[33m[0,-1,1]\x1b[0m:[34],\x1b[33m[0,0,0]\x1b[0m:[35,36,37,38,39,40],\x1b[33m[0,1,-1]\x1b[0m:[41,42,43,44,45,46],\x1b[33m[1,-1,0]\x1b[0m:[47,48,49,50,51,52],\x1b[33m[1,0,-1]\x1b[0m:[53,54,55,56,57,58,59,60]}}"),
    (88, "{\x1b[32mnames\x1b[0m:[Right,Merged],\x1b[32medges\x1b[0m:[{arrow:0,map:{-1:1,0:2,1:3}},{arrow:0,map:{-1:11,0:10,1:7}}],\x1b[32mblocks\x1b[0m:{\x1b[33m[-1,1]\x1b[0m:[34,-47,-48,-49,-50,-51,-52],\x1b[33m[0,0]\x1b[0m:[1,3,5,35,36,37,53,54,57,58,2,4,6,38,39,40,55,56,59,60],\x1b[33m[1,-1]\x1b[0m:[-7,-8,-9,-16,-17,-18,-25,-26,-27,41,42,-10,-11,-12,-19,-20,-21,-28,-29,-30,43,44,-13,-14,-15,-22,-23,-24,-31,-32,-33,45,46]}}"),
    (89, "{\x1b[32mnames\x1b[0m:[Right,Left,Up],\x1b[32medges\x1b[0m:[{arrow:0,map:{-1:1,0:2,1:3}},{arrow:0,map:{-1:3,0:1,1:2}},{arrow:0,map:{-1:2,0:3,1:1}}],\x1b[32mblocks\x1b[0m:{\x1b[33m[-1,0,1]\x1b[0m:[34],\x1b[33m[-1,1,0]\x1b[0m:[-47,-48,-49,-50,-51,-52],\x1b[33m[0,-1,1]\x1b[0m:[1,3,5,2,4,6],\x1b[33m[0,0,0]\x1b[0m:[35,36,37,38,39,40],\x1b[33m[0,1,-1]\x1b[0m:[53,54,57,58,55,56,59,60],\x1b[33m[1,-1,0]\x1b[0m:[-7,-8,-9,-16,-17,-18,-25,-26,-27,-10,-11,-12,-19,-20,-21,-28,-29,-30,-13,-14,-15,-22,-23,-24,-31,-32,-33],\x1b[33m[1,0,-1]\x1b[0m:[41,42,43,44,45,46]}}"),
    (90, "{\x1b[32mnames\x1b[0m:[Left,Right,Up],\x1b[32medges\x1b[0m:[{arrow:0,map:{-1:3,0:1,1:2}},{arrow:0,map:{-1:1,0:2,1:3}},{arrow:0,map:{-1:2,0:3,1:1}}],\x1b[32mblocks\x1b[0m:{\x1b[33m[-1,0,1]\x1b[0m:[1,2,3,4,5,6],\x1b[33m[-1,1,0]\x1b[0m:[7,8,9,10,11,12,13,14,15,16,17,18,19,20,21,22,23,24,25,26,27,28,29,30,31,32,33],\x1b[33m[0,-1,1]\x1b[0m:[34],\x1b[33m[0,0,0]\x1b[0m:[35,36,37,38,39,40],\x1b[33m[0,1,-1]\x1b[0m:[41,42,43,44,45,46],\x1b[33m[1,-1,0]\x1b[0m:[47,48,49,50,51,52],\x1b[33m[1,0,-1]\x1b[0m:[53,54,55,56,57,58,59,60]}}"),
    (93, "{\x1b[32mnames\x1b[0m:[A,B],\x1b[32medges\x1b[0m:[8,8],\x1b[32mblocks\x1b[0m:[0,1,2,3,4,5,6,7,8,9,10,11,12,13,14,15,16,17,18,19,20,21,22,23,24,25,26,27,28,29,30,31,32,33,34,35,36,37,38,39,40,41,42,43,44,45,46,47,48,49,50,51,52,53,54,55,56,57,58,59,60,61,62,63]}"),
    (94, "{\x1b[32mnames\x1b[0m:[J,I],\x1b[32medges\x1b[0m:[8,8],\x1b[32mblocks\x1b[0m:[0,4,16,20,32,36,48,52,8,12,24,28,40,44,56,60,1,5,17,21,33,37,49,53,9,13,25,29,41,45,57,61,2,6,18,22,34,38,50,54,10,14,26,30,42,46,58,62,3,7,19,23,35,39,51,55,11,15,27,31,43,47,59,63]}"),
    (95, "{\x1b[32mnames\x1b[0m:[B,C,A],\x1b[32medges\x1b[0m:[3,4,2],\x1b[32mblocks\x1b[0m:[0,12,1,13,2,14,3,15,4,16,5,17,6,18,7,19,8,20,9,21,10,22,11,23]}"),
    (96, "0"),
    (97, "0"),
    (98, "{\x1b[32mnames\x1b[0m:[Down1,Right1,Up,Left],\x1b[32medges\x1b[0m:[{arrow:0,map:{0:1,1:2}},{arrow:0,map:{-1:1,0:4,1:2}},{arrow:0,map:{-1:2,0:3,1:1}},{arrow:1,map:{-2:3,-1:4,0:3,1:2}}],\x1b[32mblocks\x1b[0m:{\x1b[33m[0,-1,0,1]\x1b[0m:[-290,-299,-293,-302,-296,-305],\x1b[33m[0,-1,1,0]\x1b[0m:[205,308,309],\x1b[33m[0,0,-1,1]\x1b[0m:[-310,-334,-313,-337,-316,-340,-319,-343,-322,-346,-325,-349,-328,-352,-331,-355],\x1b[33m[0,0,0,0]\x1b[0m:[224,358,370,227,359,371,230,360,372,233,361,373,236,362,374,239,363,375,242,364,376,245,365,377,248,366,378,251,367,379,254,368,380,257,369,381],\x1b[33m[0,0,1,-1]\x1b[0m:[-79,-91,-103,260,-82,-94,-106,261,-85,-97,-109,262,-88,-100,-112,263],\x1b[33m[0,1,-1,0]\x1b[0m:[264,382,386,267,383,387,270,384,388,273,385,389],\x1b[33m[0,1,0,-1]\x1b[0m:[-139,-157,-175,276,-142,-160,-178,277,-145,-163,-181,278,-148,-166,-184,279,-151,-169,-187,280,-154,-172,-190,281],\x1b[33m[0,1,1,-2]\x1b[0m:[193,195,197,194,196,198],\x1b[33m[1,-1,-1,1]\x1b[0m:[-282,-286,-284,-288,-283,-287,-285,-289],\x1b[33m[1,-1,0,0]\x1b[0m:[-199,-291,-300,-201,-294,-303,-203,-297,-306,-200,-292,-301,-202,-295,-304,-204,-298,-307],\x1b[33m[1,-1,1,-1]\x1b[0m:[-1,-3,-5,206,-2,-4,-6,207],\x1b[33m[1,0,-1,0]\x1b[0m:[-208,-311,-335,-210,-314,-338,-212,-317,-341,-214,-320,-344,-216,-323,-347,-218,-326,-350,-220,-329,-353,-222,-332,-356,-209,-312,-336,-211,-315,-339,-213,-318,-342,-215,-321,-345,-217,-324,-348,-219,-327,-351,-221,-330,-354,-223,-333,-357],\x1b[33m[1,0,0,-1]\x1b[0m:[-7,-31,-55,225,-9,-33,-57,228,-11,-35,-59,231,-13,-37,-61,234,-15,-39,-63,237,-17,-41,-65,240,-19,-43,-67,243,-21,-45,-69,246,-23,-47,-71,249,-25,-49,-73,252,-27,-51,-75,255,-29,-53,-77,258,-8,-32,-56,226,-10,-34,-58,229,-12,-36,-60,232,-14,-38,-62,235,-16,-40,-64,238,-18,-42,-66,241,-20,-44,-68,244,-22,-46,-70,247,-24,-48,-72,250,-26,-50,-74,253,-28,-52,-76,256,-30,-54,-78,259],\x1b[33m[1,0,1,-2]\x1b[0m:[-80,-92,-104,-83,-95,-107,-86,-98,-110,-89,-101,-113,-81,-93,-105,-84,-96,-108,-87,-99,-111,-90,-102,-114],\x1b[33m[1,1,-1,-1]\x1b[0m:[-115,-123,-131,265,-117,-125,-133,268,-119,-127,-135,271,-121,-129,-137,274,-116,-124,-132,266,-118,-126,-134,269,-120,-128,-136,272,-122,-130,-138,275],\x1b[33m[1,1,0,-2]\x1b[0m:[-140,-158,-176,-143,-161,-179,-146,-164,-182,-149,-167,-185,-152,-170,-188,-155,-173,-191,-141,-159,-177,-144,-162,-180,-147,-165,-183,-150,-168,-186,-153,-171,-189,-156,-174,-192]}}"),
    (101, "{\x1b[32mnames\x1b[0m:[A,B],\x1b[32medges\x1b[0m:[2,2],\x1b[32mblocks\x1b[0m:[0,1,2,3]}"),
    (102, "{\x1b[32mnames\x1b[0m:[C,D],\x1b[32medges\x1b[0m:[2,2],\x1b[32mblocks\x1b[0m:[0,1,2,3]}"),
    (103, "{\x1b[32mnames\x1b[0m:[B,D],\x1b[32medges\x1b[0m:[2,2],\x1b[32mblocks\x1b[0m:[4,6,6,10]}"),
    (104, "{\x1b[32mnames\x1b[0m:[B,C],\x1b[32medges\x1b[0m:[2,2],\x1b[32mblocks\x1b[0m:[2,6,3,11]}"),
    (105, "{\x1b[32mnames\x1b[0m:[A,D],\x1b[32medges\x1b[0m:[2,2],\x1b[32mblocks\x1b[0m:[2,3,6,11]}"),
    (106, "{\x1b[32mnames\x1b[0m:[A,C],\x1b[32medges\x1b[0m:[2,2],\x1b[32mblocks\x1b[0m:[1,3,3,13]}"),
    (107, "{\x1b[32mnames\x1b[0m:[A,C,E,F],\x1b[32medges\x1b[0m:[1,3,3,1],\x1b[32mblocks\x1b[0m:[316,796,1276,428,1164,1900,540,1532,2524]}"),
    (108, "{\x1b[32mnames\x1b[0m:[A,B,C,D],\x1b[32medges\x1b[0m:[{arrow:1,map:{-2:1,-1:1,0:1}},{arrow:0,map:{0:1,1:2}},{arrow:0,map:{0:2,1:2}},{arrow:1,map:{-2:2,-1:1,0:2}}],\x1b[32mblocks\x1b[0m:{\x1b[33m[-2,1,1,0]\x1b[0m:[0,1,2,3,4,5,6,7],\x1b[33m[-1,0,1,0]\x1b[0m:[8,9,10,11],\x1b[33m[-1,1,0,0]\x1b[0m:[12,13,14,15,16,17,18,19],\x1b[33m[-1,1,1,-1]\x1b[0m:[20,21,22,23],\x1b[33m[0,0,0,0]\x1b[0m:[24,25,26,27],\x1b[33m[0,0,1,-1]\x1b[0m:[28,29],\x1b[33m[0,1,0,-1]\x1b[0m:[30,31,32,33],\x1b[33m[0,1,1,-2]\x1b[0m:[34,35,36,37,38,39,40,41]}}"),
    (109, "{\x1b[32mnames\x1b[0m:[E,F,G,H],\x1b[32medges\x1b[0m:[{arrow:0,map:{0:2,1:1}},{arrow:1,map:{-2:1,-1:1,0:2}},{arrow:1,map:{-1:2,0:1}},{arrow:0,map:{0:2,1:1,2:2}}],\x1b[32mblocks\x1b[0m:{\x1b[33m[0,-2,0,2]\x1b[0m:[0,1,2,3],\x1b[33m[0,-1,-1,2]\x1b[0m:[4,5,6,7,8,9,10,11],\x1b[33m[0,-1,0,1]\x1b[0m:[12,13],\x1b[33m[0,0,-1,1]\x1b[0m:[14,15,16,17,18,19,20,21],\x1b[33m[0,0,0,0]\x1b[0m:[22,23,24,25,26,27,28,29],\x1b[33m[1,-2,-1,2]\x1b[0m:[30,31,32,33],\x1b[33m[1,-2,0,1]\x1b[0m:[34],\x1b[33m[1,-1,-1,1]\x1b[0m:[35,36],\x1b[33m[1,-1,0,0]\x1b[0m:[37,38],\x1b[33m[1,0,-1,0]\x1b[0m:[39,40,41,42,43,44,45,46]}}"),
    (110, "{\x1b[32mnames\x1b[0m:[A,C,E,F],\x1b[32medges\x1b[0m:[{arrow:1,map:{-2:1,-1:1,0:1}},{arrow:0,map:{0:2,1:2}},{arrow:0,map:{0:2,1:1}},{arrow:1,map:{-2:1,-1:1,0:2}}],\x1b[32mblocks\x1b[0m:{\x1b[33m[-2,1,1,0]\x1b[0m:[-414,-454,-738,-810],\x1b[33m[-1,0,1,0]\x1b[0m:[2358,2590,2682,2946],\x1b[33m[-1,1,0,0]\x1b[0m:[-699,-749,-799,-849,-686,-732,-778,-824],\x1b[33m[-1,1,1,-1]\x1b[0m:[-972,-905],\x1b[33m[0,0,0,0]\x1b[0m:[2107,2329,2551,2773,2210,2444,2678,2912],\x1b[33m[0,0,1,-1]\x1b[0m:[4066,4283],\x1b[33m[0,1,0,-1]\x1b[0m:[-1226,-1805,-1290,-1899],\x1b[33m[0,1,1,-2]\x1b[0m:[-5594,-5884]}}"),
    (111, "{\x1b[32mnames\x1b[0m:[A,C,E,F],\x1b[32medges\x1b[0m:[{arrow:1,map:{-2:1,-1:1,0:1}},{arrow:0,map:{0:2,1:2}},{arrow:0,map:{0:2,1:1}},{arrow:1,map:{-2:1,-1:1,0:2}}],\x1b[32mblocks\x1b[0m:{\x1b[33m[-2,1,1,0]\x1b[0m:[-414,-454,-738,-810],\x1b[33m[-1,0,1,0]\x1b[0m:[2358,2590,2682,2946],\x1b[33m[-1,1,0,0]\x1b[0m:[-699,-749,-799,-849,-686,-732,-778,-824],\x1b[33m[-1,1,1,-1]\x1b[0m:[-972,-905],\x1b[33m[0,0,0,0]\x1b[0m:[2107,2329,2551,2773,2210,2444,2678,2912],\x1b[33m[0,0,1,-1]\x1b[0m:[4066,4283],\x1b[33m[0,1,0,-1]\x1b[0m:[-1226,-1805,-1290,-1899],\x1b[33m[0,1,1,-2]\x1b[0m:[-5594,-5884]}}") ]

#guard printed.length = 68
#guard printed = recorded

end TAT.Recorded
