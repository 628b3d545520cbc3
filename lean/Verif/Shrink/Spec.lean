import Verif.Shrink.Main

/-!
# Specification vocabulary for `shrink` and `expand`
-/

namespace TAT

variable {ν σ α : Type} [LinearOrder ν] [TatSym σ]

/-- The position chosen for a name, if any. -/
def chosen (configure : List (ν × (σ × ℕ))) (n : ν) : Option (σ × ℕ) :=
  (configure.find? fun c => decide (c.1 = n)).map Prod.snd

/-- The edges that are fixed. -/
def slicedNames (configure : List (ν × (σ × ℕ))) (names : List ν) : List ν :=
  names.filter fun n => (chosen configure n).isSome

/-- The position in the whole tensor: fixed edges have the chosen position. -/
def placed (configure : List (ν × (σ × ℕ))) (names : List ν) (p : ν → σ × ℕ) (n : ν) : σ × ℕ :=
  if n ∈ names then (chosen configure n).getD (p n) else p n

/-- The total symmetry of the chosen positions. -/
def chosenTotal (configure : List (ν × (σ × ℕ))) (names : List ν) : σ :=
  ((slicedNames configure names).map fun n => ((chosen configure n).getD (0, 0)).1).sum

end TAT
