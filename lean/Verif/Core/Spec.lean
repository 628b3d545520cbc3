import Verif.Core.Model
import Verif.Basic.Radix

/-!
# Specification vocabulary for edges and cores
-/

namespace TAT

variable {σ : Type}

/-- Length of the longest common prefix. -/
def commonPrefix : List ℕ → List ℕ → ℕ
  | a :: as, b :: bs => if a = b then commonPrefix as bs + 1 else 0
  | _, _ => 0

/-- One visit of an enumeration with change hints: the state is the previous combination, the hint
returned by the visitor and the visitor's own state; the visitor is given the smaller of the hint
and the length of the prefix that did not change. -/
def visitStep {S : Type} (operate : List ℕ → ℕ → S → ℕ × S) (st : List ℕ × ℕ × S)
    (pos : List ℕ) : List ℕ × ℕ × S :=
  let r := operate pos (min st.2.1 (commonPrefix st.1 pos)) st.2.2
  (pos, r.1, r.2)

/-- All ways to choose one entry from every list, the last choice varying fastest. -/
def choices {β : Type} : List (List β) → List (List β)
  | [] => [[]]
  | m :: ms => m.flatMap fun x => (choices ms).map (x :: ·)

/-- The blocks a tensor with the given edges has: the combinations of edge symmetries with total
zero, in enumeration order, with the product of their dimensions. -/
def blockShapes [TatSym σ] (maps : List (List (σ × ℕ))) : List (List σ × ℕ) :=
  ((choices maps).filter fun c => (c.map Prod.fst).sum = 0).map
    fun c => (c.map Prod.fst, (c.map Prod.snd).prod)

/-- Symmetry `s` of edge `i` takes part in some block. -/
def usedAt [TatSym σ] (maps : List (List (σ × ℕ))) (i : ℕ) (s : σ) : Bool :=
  (blockShapes maps).any fun b => b.1[i]? = some s

/-- Edge maps restricted to the symmetries that take part in some block. -/
def pruned [TatSym σ] (maps : List (List (σ × ℕ))) : List (List (σ × ℕ)) :=
  maps.mapIdx fun i m => m.filter fun p => usedAt maps i p.1

end TAT
