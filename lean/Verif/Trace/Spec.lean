import Verif.Trace.Model
import Verif.Contract.Spec
import Verif.TensorMisc.Identity

/-!
# Specification vocabulary for the trace
-/

namespace TAT

variable {ν σ α : Type} [LinearOrder ν] [TatSym σ]

/-- Every pair has opposite symmetries and equal indices. -/
def Diagonal (pairs : List (ν × ν)) (w : ν → σ × ℕ) : Prop :=
  ∀ c ∈ pairs, (w c.1).1 + (w c.2).1 = 0 ∧ (w c.1).2 = (w c.2).2

instance (pairs : List (ν × ν)) (w : ν → σ × ℕ) : Decidable (Diagonal pairs w) :=
  inferInstanceAs (Decidable (∀ c ∈ pairs, _))

/-- Of a pair, the edge pointing out. -/
def outOf (t : Tensor ν σ α) (c : ν × ν) : ν := if (edgeOf t c.1).arrow then c.1 else c.2

/-- Of a pair, the edge pointing in. -/
def inOf (t : Tensor ν σ α) (c : ν × ν) : ν := if (edgeOf t c.1).arrow then c.2 else c.1

/-- The fermionic sign of a trace: bring the edges of the pairs to the front, those pointing out in
reverse order before those pointing in, so that partners meet one after the other. -/
def traceSign (t : Tensor ν σ α) (pairs : List (ν × ν)) (w : ν → σ × ℕ) : ℤ :=
  if TatSym.isFermi σ then
    exchangeOf (oddAt w) t.names
      ((pairs.map (outOf t)).reverse ++ (pairs.map (inOf t) ++ others t.names (pairNames pairs)))
  else 1

/-- The traced element: the sum over the diagonal positions of the pairs. -/
def traced [AddCommGroup α] (t : Tensor ν σ α) (pairs : List (ν × ν)) (p : ν → σ × ℕ) : α :=
  sumOver (fun n => edgePositions (mapOf t n))
    (fun w => if Diagonal pairs w then traceSign t pairs w • amp t w else 0) (pairNames pairs) p

end TAT
