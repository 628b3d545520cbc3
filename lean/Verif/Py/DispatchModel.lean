import Verif.Basic.Outcome
import Mathlib.Data.List.Infix

/-!
# Model of the choice of a tensor class by text in the Python binding

`PyTAT/PyTAT.cpp` 30-56 and 877-880 (the declared classes), 389-413 (`to`), 882-945 (`TAT(…)`, called `hub`
there).  Both look for words in the text which `str` makes of their arguments; the text is the parameter
here.  `hub` without arguments prints a message and is not modelled.
-/

namespace TAT

/-- PyTAT.cpp 30-34: the scalar types with their letters. -/
inductive PyScalar where
  | S | D | C | Z
deriving DecidableEq, Repr

/-- PyTAT.cpp 36-42: the symmetry types are `No`, `Z2`, `U1`, alone or (but for `No`) after `Fermi`. -/
inductive PyGroup where
  | none | No | Z2 | U1
deriving DecidableEq, Repr

/-- What `hub` returns: the module `mpi`, or the class of the name `scalar + fermi + symmetry`. -/
inductive PyChoice where
  | mpi
  | tensor (scalar : PyScalar) (fermi : Bool) (group : PyGroup)
deriving DecidableEq, Repr

/-- PyTAT.cpp 393, 888: `text.__contains__(word)`. -/
def contain (text : List Char) (word : String) : Bool := decide (word.toList <:+: text)

/-- PyTAT.cpp 389-413: the scalar type `to` converts to. -/
def toScalar (text : List Char) : Outcome PyScalar :=
  if contain text "float32" then .ok .S
  else if contain text "complex32" then .ok .C
  else if contain text "float" then .ok .D
  else if contain text "complex" then .ok .Z
  else if contain text "S" then .ok .S
  else if contain text "D" then .ok .D
  else if contain text "C" then .ok .C
  else if contain text "Z" then .ok .Z
  else .error "Invalid scalar type in type conversion"

/-- PyTAT.cpp 895-902. -/
def hubFermi (text : List Char) : Outcome Bool :=
  let fermi := contain text "Fermi"
  if contain text "Bose" && fermi then .error "Fermi Ambiguous" else .ok fermi

/-- PyTAT.cpp 903-920. -/
def hubGroup (text : List Char) (fermi : Bool) : Outcome PyGroup :=
  let group := if contain text "U1" then PyGroup.U1 else .none
  (if contain text "Z2" then
    (if group = .none then .ok .Z2 else .error "Symmetry Ambiguous") else .ok group : Outcome PyGroup).bind
      fun group =>
  if contain text "No" && group ≠ .none then .error "Symmetry Ambiguous"
  else if group = .none && !fermi then .ok .No
  else .ok group

/-- PyTAT.cpp 921-943. -/
def hubScalar (text : List Char) : Outcome PyScalar :=
  let scalar : Option PyScalar := if contain text "complex" then some .Z else none
  let scalar := if contain text "complex32" then some .C else scalar
  (if contain text "float" then
    (if scalar = none then .ok (some .D) else .error "Scalar Ambiguous") else .ok scalar
      : Outcome (Option PyScalar)).bind fun scalar =>
  (if contain text "float32" then
    (if scalar = none ∨ scalar = some .D then .ok (some .S) else .error "Scalar Ambiguous") else .ok scalar
      : Outcome (Option PyScalar)).bind fun scalar =>
  match scalar with
  | none => .error "Scalar Ambiguous"
  | some s => .ok s

/-- PyTAT.cpp 887-945. -/
def hub (text : List Char) : Outcome PyChoice :=
  if contain text "mpi" || contain text "MPI" then .ok .mpi
  else
    (hubFermi text).bind fun fermi =>
    (hubGroup text fermi).bind fun group =>
    (hubScalar text).bind fun scalar =>
    .ok (.tensor scalar fermi group)

/-- The letter of a scalar type. -/
def PyScalar.text : PyScalar → String
  | .S => "S" | .D => "D" | .C => "C" | .Z => "Z"

/-- The name of a symmetry group. -/
def PyGroup.text : PyGroup → String
  | .none => "" | .No => "No" | .Z2 => "Z2" | .U1 => "U1"

/-- PyTAT.cpp 944: the attribute looked up in the module of the tensors. -/
def className (s : PyScalar) (fermi : Bool) (g : PyGroup) : String :=
  s.text ++ (if fermi then "Fermi" else "") ++ g.text

/-- PyTAT.cpp 44-56, 877-880: the declared classes. -/
def declaredClasses : List String :=
  ["No", "Z2", "U1", "Fermi", "FermiZ2", "FermiU1"].flatMap fun sym =>
    ["S", "D", "C", "Z"].map fun scalar => scalar ++ sym

end TAT
