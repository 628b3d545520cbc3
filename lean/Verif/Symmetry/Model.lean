import Mathlib.Data.BitVec
import Mathlib.Data.Prod.Lex
import Mathlib.Algebra.Group.Basic
import Mathlib.Tactic.Common

/-!
# Model of `include/TAT/symmetry.hpp`

Lines 177-346: the six symmetry types, their `+`, `+=`, unary `-` and comparison
operators.  `Z2` is `bool`, `U1` is `int32_t`, `Fermi` is `int16_t`
(`basic_type.hpp` 60-72).
-/

namespace TAT

/-- `Fermi` = `int16_t` (basic_type.hpp).  Two's complement. -/
abbrev Fermi := BitVec 16
/-- `U1` = `int32_t` (basic_type.hpp).  Two's complement. -/
abbrev U1 := BitVec 32

/-- Integral promotion to `int`, computation, and narrowing conversion back to `int16_t`
(symmetry.hpp 258, 261, 265: `FermiSymmetry(symmetry_1.fermi + symmetry_2.fermi)`). -/
def narrow16 (i : Int) : Fermi := BitVec.ofInt 16 i

/-- `int32_t` arithmetic (symmetry.hpp 233, 236, 240).  Signed overflow is undefined in C++; the
model wraps, so it agrees with the code whenever the code is defined. -/
def narrow32 (i : Int) : U1 := BitVec.ofInt 32 i

/-- symmetry.hpp 177-181 `struct NoSymmetry`. -/
structure NoSymmetry where
deriving DecidableEq, Repr

/-- symmetry.hpp 197-205 `struct Z2Symmetry`. -/
structure Z2Symmetry where
  z2 : Bool := false
deriving DecidableEq, Repr

/-- symmetry.hpp 222-230 `struct U1Symmetry`. -/
structure U1Symmetry where
  u1 : U1 := 0
deriving DecidableEq, Repr

/-- symmetry.hpp 247-255 `struct FermiSymmetry`. -/
structure FermiSymmetry where
  fermi : Fermi := 0
deriving DecidableEq, Repr

/-- symmetry.hpp 272-281 `struct FermiZ2Symmetry`. -/
structure FermiZ2Symmetry where
  fermi : Fermi := 0
  z2 : Bool := false
deriving DecidableEq, Repr

/-- symmetry.hpp 299-308 `struct FermiU1Symmetry`. -/
structure FermiU1Symmetry where
  fermi : Fermi := 0
  u1 : U1 := 0
deriving DecidableEq, Repr

/-- The operations a symmetry type provides: default value, `operator+`, `operator+=`,
`operator-` and the six comparison operators.  (symmetry.hpp 30-33 lists exactly this as the
interface of a user-defined symmetry.) -/
class SymOps (σ : Type) where
  /-- `Symmetry()` -/
  default : σ
  /-- `operator+` -/
  plus : σ → σ → σ
  /-- `operator+=`: the new value of the left operand -/
  plusAssign : σ → σ → σ
  /-- unary `operator-` -/
  minus : σ → σ
  /-- `operator==` -/
  eq : σ → σ → Bool
  /-- `operator!=` -/
  ne : σ → σ → Bool
  /-- `operator>=` -/
  ge : σ → σ → Bool
  /-- `operator<=` -/
  le : σ → σ → Bool
  /-- `operator>` -/
  gt : σ → σ → Bool
  /-- `operator<` -/
  lt : σ → σ → Bool

/-- `std::tie(a, b) < std::tie(c, d)` on integers: lexicographic comparison of tuples as in the
C++ standard (`a < c || (!(c < a) && b < d)`). -/
def tieLt (x y : Int × Int) : Bool :=
  decide (x.1 < y.1) || (!decide (y.1 < x.1) && decide (x.2 < y.2))

/-- `std::tie(a, b) == std::tie(c, d)`. -/
def tieEq (x y : Int × Int) : Bool := decide (x.1 = y.1) && decide (x.2 = y.2)

/-- `bool` in a comparison promotes to 0/1. -/
def b2i (b : Bool) : Int := if b then 1 else 0

/-- symmetry.hpp 326-336: the comparison macros, all defined through `information()`; a single
field is treated as a tuple with second component 0.  `a != b`, `a >= b`, `a <= b`, `a > b` of
tuples are by the C++ standard `!(a==b)`, `!(a<b)`, `!(b<a)`, `b<a`. -/
@[instance_reducible] def opsOf {σ : Type} (dflt : σ) (plus plusAssign : σ → σ → σ) (minus : σ → σ)
    (information : σ → Int × Int) : SymOps σ where
  default := dflt
  plus := plus
  plusAssign := plusAssign
  minus := minus
  eq a b := tieEq (information a) (information b)
  ne a b := !tieEq (information a) (information b)
  ge a b := !tieLt (information a) (information b)
  le a b := !tieLt (information b) (information a)
  gt a b := tieLt (information b) (information a)
  lt a b := tieLt (information a) (information b)

/-- symmetry.hpp 178-180 `information()` -/
def NoSymmetry.information (_ : NoSymmetry) : Int × Int := (0, 0)
/-- symmetry.hpp 202-204 -/
def Z2Symmetry.information (s : Z2Symmetry) : Int × Int := (b2i s.z2, 0)
/-- symmetry.hpp 227-229 -/
def U1Symmetry.information (s : U1Symmetry) : Int × Int := (s.u1.toInt, 0)
/-- symmetry.hpp 252-254 -/
def FermiSymmetry.information (s : FermiSymmetry) : Int × Int := (s.fermi.toInt, 0)
/-- symmetry.hpp 278-280 -/
def FermiZ2Symmetry.information (s : FermiZ2Symmetry) : Int × Int := (s.fermi.toInt, b2i s.z2)
/-- symmetry.hpp 305-307 -/
def FermiU1Symmetry.information (s : FermiU1Symmetry) : Int × Int := (s.fermi.toInt, s.u1.toInt)

/-- symmetry.hpp 183-191, 338 -/
instance : SymOps NoSymmetry :=
  opsOf {} (fun _ _ => {}) (fun s _ => s) (fun _ => {}) NoSymmetry.information

/-- symmetry.hpp 207-216, 339 -/
instance : SymOps Z2Symmetry :=
  opsOf {} (fun a b => ⟨a.z2 ^^ b.z2⟩) (fun a b => { a with z2 := a.z2 ^^ b.z2 })
    (fun a => ⟨a.z2⟩) Z2Symmetry.information

/-- symmetry.hpp 232-241, 340 -/
instance : SymOps U1Symmetry :=
  opsOf {} (fun a b => ⟨narrow32 (a.u1.toInt + b.u1.toInt)⟩)
    (fun a b => { a with u1 := narrow32 (a.u1.toInt + b.u1.toInt) })
    (fun a => ⟨narrow32 (-a.u1.toInt)⟩) U1Symmetry.information

/-- symmetry.hpp 257-266, 341 -/
instance : SymOps FermiSymmetry :=
  opsOf {} (fun a b => ⟨narrow16 (a.fermi.toInt + b.fermi.toInt)⟩)
    (fun a b => { a with fermi := narrow16 (a.fermi.toInt + b.fermi.toInt) })
    (fun a => ⟨narrow16 (-a.fermi.toInt)⟩) FermiSymmetry.information

/-- symmetry.hpp 283-293, 342 -/
instance : SymOps FermiZ2Symmetry :=
  opsOf {} (fun a b => ⟨narrow16 (a.fermi.toInt + b.fermi.toInt), a.z2 ^^ b.z2⟩)
    (fun a b => { a with fermi := narrow16 (a.fermi.toInt + b.fermi.toInt), z2 := a.z2 ^^ b.z2 })
    (fun a => ⟨narrow16 (-a.fermi.toInt), a.z2⟩) FermiZ2Symmetry.information

/-- symmetry.hpp 310-320, 343 -/
instance : SymOps FermiU1Symmetry :=
  opsOf {} (fun a b => ⟨narrow16 (a.fermi.toInt + b.fermi.toInt),
                        narrow32 (a.u1.toInt + b.u1.toInt)⟩)
    (fun a b => { a with fermi := narrow16 (a.fermi.toInt + b.fermi.toInt)
                         u1 := narrow32 (a.u1.toInt + b.u1.toInt) })
    (fun a => ⟨narrow16 (-a.fermi.toInt), narrow32 (-a.u1.toInt)⟩) FermiU1Symmetry.information

/-- `bool(x % 2)` on a (promoted) fermion number: C++ remainder truncates towards zero
(symmetry.hpp 109, 129). -/
def oddInt (f : Int) : Bool := Int.tmod f 2 != 0

/-! ## Loops of `fermi_symmetry` (symmetry.hpp 92-172)

They read the field `.fermi` of each symmetry; here the caller passes the fermion numbers. -/

/-- symmetry.hpp 104-113 `get_reverse_parity`.  `flag`/`mark` are indexed by position. -/
def getReverseParity (fermis : List Int) (flag mark : List Bool) : Bool :=
  (List.range fermis.length).foldl (fun result i =>
    if flag.getD i false && mark.getD i false then result ^^ oddInt (fermis.getD i 0) else result)
    false

/-- symmetry.hpp 123-134 `get_transpose_parity`: the double loop `i < j`. -/
def getTransposeParity (fermis : List Int) (plan : List Nat) : Bool :=
  (List.range fermis.length).foldl (fun result i =>
    (List.range' (i + 1) (fermis.length - (i + 1))).foldl (fun result j =>
      if plan.getD i 0 > plan.getD j 0 then
        result ^^ (oddInt (fermis.getD i 0) && oddInt (fermis.getD j 0))
      else result) result) false

/-- symmetry.hpp 155-157: `while (end < symmetries.size() && flag[end] == group) end++`;
`fuel` bounds the loop by the remaining length. -/
def scanGroup (flag : List Nat) (n group : Nat) : Nat → Nat → Nat
  | 0, e => e
  | fuel + 1, e =>
    if e < n && flag.getD e 0 == group then scanGroup flag n group fuel (e + 1) else e

/-- symmetry.hpp 158-167: parity of one group `[b, e)`, by the closed formula
`((Σ s)² - Σ s²) / 2 % 2` with C++ division and remainder. -/
def groupParity (fermis : List Int) (b e : Nat) : Bool :=
  let ps := (List.range' b (e - b)).foldl (fun (acc : Int × Int) i =>
    let p := fermis.getD i 0
    (acc.1 + p, acc.2 + p * p)) (0, 0)
  Int.tmod (Int.tdiv (ps.1 * ps.1 - ps.2) 2) 2 != 0

/-- symmetry.hpp 144-171 `get_split_merge_parity`. -/
def getSplitMergeParity (fermis : List Int) (flag : List Nat) (mark : List Bool) : Bool :=
  ((List.range mark.length).foldl (fun (st : Bool × Nat × Nat) group =>
    let (result, b, e) := st
    let e' := scanGroup flag fermis.length group (fermis.length - e) e
    let result' := if mark.getD group false then result ^^ groupParity fermis b e' else result
    (result', e', e')) (false, 0, 0)).1

end TAT
