import Verif.Tensor.Model
import Verif.Name.Model

/-!
# Model of the text input and output: `include/TAT/io.hpp` 36-97, 110-139, 202-249, 289-342, 370-548

A stream for input is `some rest` as long as it is good and `none` once one of its error bits, the end-of-file
bit included, is set; every operation on a stream that is not good fails at once.  Numbers are printed and
scanned as the default format of the C locale does it.  How floating point numbers are printed and scanned
is a parameter (`TextScalar`, `TextReal`).  The value given to a variable by a failed scan is simplified to
a default value.

Scanning a list (io.hpp 236-247) is `while (true)` and ends at `]` only; when the stream has failed the list
grows for ever.  That is the error `outOfMemory`.
-/

namespace TAT

variable {ν σ α τ : Type}

abbrev TextIn := Option (List Char)

/-- What the endless loop of io.hpp 236-247 ends with. -/
def outOfMemory : String := "std::bad_alloc"

/-- io.hpp 62-64 `ignore_util`: read up to and including `end`. -/
def ignoreTo (c : Char) : TextIn → TextIn
  | none => none
  | some l => match l.dropWhile (· ≠ c) with
    | [] => none
    | _ :: r => some r

/-- `in.get()` -/
def getChar : TextIn → Option Char × TextIn
  | none => (none, none)
  | some [] => (none, none)
  | some (c :: r) => (some c, some r)

/-- `in.peek()` -/
def peekChar : TextIn → Option Char × TextIn
  | none => (none, none)
  | some [] => (none, none)
  | some (c :: r) => (some c, some (c :: r))

/-! ## Integers -/

/-- White space that `>>` skips. -/
def isSpaceChar (c : Char) : Bool := c.toNat == 32 || (9 ≤ c.toNat && c.toNat ≤ 13)

def isDigitChar (c : Char) : Bool := '0'.toNat ≤ c.toNat && c.toNat ≤ '9'.toNat

def digitOf (n : ℕ) : Char := Char.ofNat ('0'.toNat + n % 10)

/-- Digits of a number. -/
def decimal (n : ℕ) : List Char :=
  if n < 10 then [digitOf n] else decimal (n / 10) ++ [digitOf n]
termination_by n

/-- Value of digits. -/
def ofDecimal (l : List Char) : ℕ := l.foldl (fun n c => 10 * n + (c.toNat - '0'.toNat)) 0

/-- `out << i` for integers -/
def printInt (i : Int) : List Char := if i < 0 then '-' :: decimal i.natAbs else decimal i.natAbs

/-- Sign and digits of an integer: `none` if there are no digits. -/
def scanNumber (l : List Char) : Option (Bool × ℕ) × TextIn :=
  let l := l.dropWhile isSpaceChar
  let neg := l.head? == some '-'
  let l := if l.head? == some '-' || l.head? == some '+' then l.tail else l
  let digits := l.takeWhile isDigitChar
  let rest := l.dropWhile isDigitChar
  if digits.isEmpty then (none, none)
  else (some (neg, ofDecimal digits), if rest.isEmpty then none else some rest)

/-- `in >> x` for an integer type with the given conversion; numbers out of range are a failure. -/
def scanAs (conv : Bool → ℕ → Option τ) (dflt : τ) : TextIn → τ × TextIn
  | none => (dflt, none)
  | some l => match scanNumber l with
    | (none, _) => (dflt, none)
    | (some (neg, m), s) => match conv neg m with
      | none => (dflt, none)
      | some x => (x, s)

/-- `Size` is unsigned with 64 bits; a minus sign negates modulo 2^64. -/
def scanSize : TextIn → ℕ × TextIn :=
  scanAs (fun neg m => if m < 2 ^ 64 then some (if neg then (2 ^ 64 - m) % 2 ^ 64 else m) else none) 0

def printSize (n : ℕ) : List Char := decimal n

/-- `bool` is 0 or 1. -/
def scanBool : TextIn → Bool × TextIn :=
  scanAs (fun neg m => if m = 0 then some false else if m = 1 ∧ neg = false then some true else none) false

def printBool (b : Bool) : List Char := decimal (if b then 1 else 0)

/-- `short` and `int` -/
def scanBits (w : ℕ) : TextIn → BitVec w × TextIn :=
  scanAs (fun neg m =>
    let i : Int := if neg then -(m : Int) else m
    if -(2 ^ (w - 1) : Int) ≤ i ∧ i < 2 ^ (w - 1) then some (BitVec.ofInt w i) else none) 0

def printBits {w : ℕ} (x : BitVec w) : List Char := printInt x.toInt

/-! ## Symmetries -/

/-- io.hpp 370-424: `<<` and `>>` of a symmetry. -/
class TextSym (σ : Type) where
  print : σ → List Char
  scan : TextIn → σ × TextIn

/-- io.hpp 370-375 -/
instance : TextSym NoSymmetry := ⟨fun _ => [], fun s => ({}, s)⟩

/-- io.hpp 376-383 -/
instance : TextSym Z2Symmetry := ⟨fun s => printBool s.z2, fun s => (⟨(scanBool s).1⟩, (scanBool s).2)⟩

/-- io.hpp 384-391 -/
instance : TextSym U1Symmetry := ⟨fun s => printBits s.u1, fun s => (⟨(scanBits 32 s).1⟩, (scanBits 32 s).2)⟩

/-- io.hpp 392-399 -/
instance : TextSym FermiSymmetry :=
  ⟨fun s => printBits s.fermi, fun s => (⟨(scanBits 16 s).1⟩, (scanBits 16 s).2)⟩

/-- io.hpp 400-411 -/
instance : TextSym FermiZ2Symmetry where
  print s := '(' :: printBits s.fermi ++ ',' :: printBool s.z2 ++ [')']
  scan s :=
    let f := scanBits 16 (ignoreTo '(' s)
    let z := scanBool (ignoreTo ',' f.2)
    (⟨f.1, z.1⟩, ignoreTo ')' z.2)

/-- io.hpp 413-424 -/
instance : TextSym FermiU1Symmetry where
  print s := '(' :: printBits s.fermi ++ ',' :: printBits s.u1 ++ [')']
  scan s :=
    let f := scanBits 16 (ignoreTo '(' s)
    let u := scanBits 32 (ignoreTo ',' f.2)
    (⟨f.1, u.1⟩, ignoreTo ')' u.2)

/-! ## Names -/

/-- io.hpp 117-120 `valid_name_character` -/
def validNameChar (c : Char) : Bool :=
  ' '.toNat < c.toNat && c.toNat < 0x7f && c != ',' && c != '[' && c != ']'

/-- io.hpp 123-132 `scan_string_for_name`: 256 characters do not fit into the buffer. -/
def scanName : TextIn → Outcome (List Char × TextIn)
  | none => .ok ([], none)
  | some l =>
    let name := l.takeWhile validNameChar
    let rest := l.dropWhile validNameChar
    if 256 ≤ name.length then .ub
    else .ok (name, if rest.isEmpty then none else some rest)

/-- io.hpp 134-139 `scan_fastname_for_name`: the dataset may grow. -/
def scanFastName [LinearOrder (List Char)] (d : Dataset (List Char)) (s : TextIn) :
    Outcome ((Dataset (List Char) × ℕ) × TextIn) :=
  (scanName s).bind fun r => .ok (mkName d r.1, r.2)

/-! ## Lists -/

/-- The texts of a list, separated by commas. -/
def joinComma : List (List Char) → List Char
  | [] => []
  | [x] => x
  | x :: y :: l => x ++ ',' :: joinComma (y :: l)

/-- io.hpp 202-222 `operator<<` of vectors -/
def printVector (print : τ → List Char) (l : List τ) : List Char :=
  '[' :: joinComma (l.map print) ++ [']']

/-- io.hpp 236-247: the loop.  Every round on a good stream takes a character, so that the number of
characters is a bound for the number of rounds. -/
def scanItems (scan : TextIn → Outcome (τ × TextIn)) : ℕ → TextIn → Outcome (List τ × TextIn)
  | 0, _ => .error outOfMemory
  | n + 1, s => (scan s).bind fun r =>
      match getChar r.2 with
      | (none, _) => .error outOfMemory
      | (some c, s') => if c = ']' then .ok ([r.1], s')
        else (scanItems scan n s').bind fun q => .ok (r.1 :: q.1, q.2)

/-- io.hpp 224-249 `operator>>` of vectors -/
def scanVector (scan : TextIn → Outcome (τ × TextIn)) (s : TextIn) : Outcome (List τ × TextIn) :=
  match peekChar (ignoreTo '[' s) with
  | (c, s') =>
    if c = some ']' then .ok ([], (getChar s').2)
    else scanItems scan ((s'.getD []).length + 1) s'

/-! ## Maps -/

/-- Key and value, as in io.hpp 303, 471, 523 -/
def printEntry {κ β : Type} (printKey : κ → List Char) (printVal : β → List Char) (e : κ × β) : List Char :=
  printKey e.1 ++ ':' :: printVal e.2

/-- The loop `do {...} while (in.get() == ',')` of io.hpp 329-334, 492-497, 537-542. -/
def scanEntries {κ β : Type} (scanKey : TextIn → Outcome (κ × TextIn))
    (scanVal : TextIn → Outcome (β × TextIn)) : ℕ → TextIn → Outcome (List (κ × β) × TextIn)
  | 0, s => .ok ([], s)
  | n + 1, s => (scanKey s).bind fun k => (scanVal (ignoreTo ':' k.2)).bind fun v =>
      match getChar v.2 with
      | (c, s') => if c = some ',' then
          (scanEntries scanKey scanVal n s').bind fun q => .ok ((k.1, v.1) :: q.1, q.2)
        else .ok ([(k.1, v.1)], s')

/-- io.hpp 326-337, 490-500, 535-545: a map in braces; a key that is read again overwrites. -/
def scanMap {κ β : Type} [LinearOrder κ] (scanKey : TextIn → Outcome (κ × TextIn))
    (scanVal : TextIn → Outcome (β × TextIn)) (s : TextIn) : Outcome (List (κ × β) × TextIn) :=
  match peekChar (ignoreTo '{' s) with
  | (c, s') =>
    if c = some '}' then .ok ([], (getChar s').2)
    else (scanEntries scanKey scanVal ((s'.getD []).length + 1) s').bind fun q => .ok (OMap.ofList q.1, q.2)

/-- A map in braces. -/
def printMap {κ β : Type} (printKey : κ → List Char) (printVal : β → List Char) (m : List (κ × β)) :
    List Char :=
  '{' :: joinComma (m.map (printEntry printKey printVal)) ++ ['}']

/-! ## Edges -/

/-- io.hpp 289-314 `operator<<` of edges; without symmetry `map.at` may throw. -/
def printEdge [TatSym σ] [TextSym σ] (e : Edge σ) : Outcome (List Char) :=
  if TatSym.isNoSym σ then
    match OMap.find? e.map 0 with
    | none => .error "map::at"
    | some d => .ok (printSize d)
  else if TatSym.isFermi σ then
    .ok ("{arrow:".toList ++ printBool e.arrow ++ ",map:".toList ++ printMap TextSym.print printSize e.map ++
      ['}'])
  else .ok (printMap TextSym.print printSize e.map)

/-- io.hpp 315-342 `operator>>` of edges, into a new edge -/
def scanEdge [TatSym σ] [TextSym σ] (s : TextIn) : Outcome (Edge σ × TextIn) :=
  if TatSym.isNoSym σ then .ok (⟨false, [(0, (scanSize s).1)]⟩, (scanSize s).2)
  else if TatSym.isFermi σ then
    let a := scanBool (ignoreTo ':' s)
    (scanMap (fun s => .ok (TextSym.scan s)) (fun s => .ok (scanSize s)) a.2).bind fun m =>
      .ok (⟨a.1, m.1⟩, ignoreTo '}' m.2)
  else
    (scanMap (fun s => .ok (TextSym.scan s)) (fun s => .ok (scanSize s)) s).bind fun m =>
      .ok (⟨false, m.1⟩, m.2)

/-- The texts of all edges, in order. -/
def printEdges [TatSym σ] [TextSym σ] : List (Edge σ) → Outcome (List (List Char))
  | [] => .ok []
  | e :: l => (printEdge e).bind fun x => (printEdges l).bind fun y => .ok (x :: y)

/-! ## Scalars -/

/-- `<<` and `>>` of a scalar. -/
structure TextScalar (α : Type) where
  print : α → List Char
  scan : TextIn → α × TextIn

/-- The real numbers a complex number is made of. -/
structure TextReal (ρ : Type) extends TextScalar ρ where
  zero : ρ
  isZero : ρ → Bool
  isPos : ρ → Bool

/-- io.hpp 36-54 `print_complex` -/
def printComplex {ρ : Type} (R : TextReal ρ) (x : ρ × ρ) : List Char :=
  if !R.isZero x.1 then
    R.print x.1 ++
      if !R.isZero x.2 then (if R.isPos x.2 then ['+'] else []) ++ R.print x.2 ++ ['i'] else []
  else if R.isZero x.2 then ['0']
  else R.print x.2 ++ ['i']

/-- io.hpp 66-91 `scan_complex` -/
def scanComplex {ρ : Type} (R : TextReal ρ) (s : TextIn) : (ρ × ρ) × TextIn :=
  let part := R.scan s
  match peekChar part.2 with
  | (c, s1) =>
    if c = some 'i' then ((R.zero, part.1), (getChar s1).2)
    else if c = some '+' ∨ c = some '-' then
      let other := R.scan s1
      match getChar other.2 with
      | (c', s2) => ((part.1, other.1), if c' = some 'i' then s2 else none)
    else ((part.1, R.zero), s1)

/-- Complex scalars: io.hpp 214-215, 239-240. -/
def complexScalar {ρ : Type} (R : TextReal ρ) : TextScalar (ρ × ρ) := ⟨printComplex R, scanComplex R⟩

/-! ## Tensors -/

/-- Colour codes: io.hpp 426-441. -/
structure Colours where
  green : List Char
  yellow : List Char
  origin : List Char

/-- io.hpp 434-437 -/
def console : Colours := ⟨"\x1B[32m".toList, "\x1B[33m".toList, "\x1B[0m".toList⟩

/-- Text without colours, as in test/test_text_io.cpp. -/
def plain : Colours := ⟨[], [], []⟩

/-- io.hpp 459-473: the blocks.  Without symmetry a tensor without block is undefined. -/
def printBlocks [TatSym σ] [TextSym σ] (C : Colours) (A : TextScalar α) (blocks : List (List σ × List α)) :
    Outcome (List Char) :=
  if TatSym.isNoSym σ then
    match blocks with
    | [] => .ub
    | b :: _ => .ok (printVector A.print b.2)
  else .ok (printMap (fun k => C.yellow ++ printVector TextSym.print k ++ C.origin) (printVector A.print) blocks)

/-- io.hpp 455-458: a title -/
def titleText (C : Colours) (title : String) : List Char :=
  C.green ++ title.toList ++ C.origin ++ [':']

/-- io.hpp 453-475 `operator<<` of tensors (the library has `C = console`) -/
def printTensor [TatSym σ] [TextSym σ] (C : Colours) (A : TextScalar α) (t : Tensor (List Char) σ α) :
    Outcome (List Char) :=
  (printEdges t.core.edges).bind fun edges =>
  (printBlocks C A t.core.blocks).bind fun blocks =>
  .ok ('{' :: titleText C "names" ++ printVector id t.names ++
    ',' :: titleText C "edges" ++ printVector id edges ++
    ',' :: titleText C "blocks" ++ blocks ++ ['}'])

/-- io.hpp 443-451 `operator<<` of the shape of a tensor -/
def printShape [TatSym σ] [TextSym σ] (C : Colours) (t : Tensor (List Char) σ α) : Outcome (List Char) :=
  (printEdges t.core.edges).bind fun edges =>
  .ok ('{' :: titleText C "names" ++ printVector id t.names ++
    ',' :: titleText C "edges" ++ printVector id edges ++ ['}'])

/-- io.hpp 485-502: the blocks -/
def scanBlocks [TatSym σ] [TextSym σ] (A : TextScalar α) (rank : ℕ) (s : TextIn) :
    Outcome (List (List σ × List α) × TextIn) :=
  if TatSym.isNoSym σ then
    (scanVector (fun s => .ok (A.scan s)) s).bind fun b => .ok ([(List.replicate rank 0, b.1)], b.2)
  else scanMap (scanVector fun s => .ok (TextSym.scan s)) (scanVector fun s => .ok (A.scan s)) s

/-- io.hpp 476-505 `operator>>` of tensors -/
def scanTensor [TatSym σ] [TextSym σ] (A : TextScalar α) (s : TextIn) :
    Outcome (Tensor (List Char) σ α × TextIn) :=
  (scanVector scanName (ignoreTo ':' s)).bind fun n =>
  (scanVector scanEdge (ignoreTo ':' n.2)).bind fun e =>
  (checkValidName n.1 e.1.length).bind fun _ =>
  (scanBlocks A n.1.length (ignoreTo ':' e.2)).bind fun b =>
  .ok (⟨n.1, ⟨e.1, b.1⟩⟩, ignoreTo '}' b.2)

/-- io.hpp 113-115: the strings of names that are numbers -/
def nameTexts (d : Dataset (List Char)) : List ℕ → Outcome (List (List Char))
  | [] => .ok []
  | n :: l => (nameString d n).bind fun x => (nameTexts d l).bind fun y => .ok (x :: y)

/-- io.hpp 453-475 for tensors whose names are `FastName` -/
def printTensorFast [TatSym σ] [TextSym σ] (d : Dataset (List Char)) (C : Colours) (A : TextScalar α)
    (t : Tensor ℕ σ α) : Outcome (List Char) :=
  (nameTexts d t.names).bind fun names => printTensor C A ⟨names, t.core⟩

/-- io.hpp 134-139: the numbers of strings, one after the other -/
def internNames [LinearOrder (List Char)] (d : Dataset (List Char)) :
    List (List Char) → Dataset (List Char) × List ℕ
  | [] => (d, [])
  | s :: l => ((internNames (mkName d s).1 l).1, (mkName d s).2 :: (internNames (mkName d s).1 l).2)

/-- io.hpp 476-505 for tensors whose names are `FastName`.  Nothing else uses the dataset meanwhile, so
that the strings are interned at the end here. -/
def scanTensorFast [LinearOrder (List Char)] [TatSym σ] [TextSym σ] (d : Dataset (List Char))
    (A : TextScalar α) (s : TextIn) : Outcome ((Dataset (List Char) × Tensor ℕ σ α) × TextIn) :=
  (scanTensor A s).bind fun r =>
    .ok (((internNames d r.1.names).1, ⟨(internNames d r.1.names).2, r.1.core⟩), r.2)

/-- io.hpp 507-526 `operator<<` of singular values -/
def printSingular [TatSym σ] [TextSym σ] (C : Colours) (A : TextScalar α) (v : List (σ × List α)) :
    Outcome (List Char) :=
  if TatSym.isNoSym σ then
    match v with
    | [] => .ub
    | b :: _ => .ok (printVector A.print b.2)
  else .ok (printMap (fun k => C.yellow ++ TextSym.print k ++ C.origin) (printVector A.print) v)

/-- io.hpp 528-548 `operator>>` of singular values, into a new object -/
def scanSingular [TatSym σ] [TextSym σ] (A : TextScalar α) (s : TextIn) :
    Outcome (List (σ × List α) × TextIn) :=
  if TatSym.isNoSym σ then
    (scanVector (fun s => .ok (A.scan s)) s).bind fun b => .ok ([(0, b.1)], b.2)
  else scanMap (fun s => .ok (TextSym.scan s)) (scanVector fun s => .ok (A.scan s)) s

end TAT
