import Verif.Contract.Model
import Verif.TensorMisc.Model

/-! Model of `contract_all_edge()` of `include/TAT/tensor.hpp`. -/

namespace TAT

/-- tensor.hpp 601-607 `contract_all_edge()`: the contraction with its own conjugate. -/
def contractConjugate {ν σ α : Type} [Zero α] [One α] [Neg α] [LinearOrder ν] [TatSym σ]
    (ce : ContractEnv σ α) (cn : ContractNames ν) (junk : List σ → ℕ → α) (conj : α → α)
    (isReal : Bool) (t : Tensor ν σ α) : Outcome (Tensor ν σ α) :=
  (conjugate junk conj isReal t).bind fun c => contractAllEdge ce cn t c

end TAT
