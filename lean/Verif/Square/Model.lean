import Verif.Basic.Outcome
import Verif.Basic.OMap
import Mathlib.Data.List.Lex
import Mathlib.Order.Fin.Basic
import Mathlib.Algebra.Field.Defs

/-!
# Sampling on a square lattice

include/square/sampling_gradient_lattice.hpp.  The amplitude of a configuration, which the code gets
from the contraction of a network (auxiliaries_system.hpp), is a function `w` of the configuration; that
the truncated contraction depends on the order in which it is done is not modelled.  Spins are in range
(the configuration is the user's).  Scalars are a field; a division by zero, which gives `inf` or `nan`
in the code and spoils all sums, is the outcome `error`.
-/

namespace TAT

variable {K R : Type}

/-! ## Tables of matrix elements -/

/-- `std::map<std::vector<int>, std::map<std::vector<int>, T>>` -/
abbrev ElementTable (K : Type) := List (List ℕ × List (List ℕ × K))

/-- sampling_gradient_lattice.hpp 495-504, 548-557: the next index, or none after the last. -/
def nextIndex (d : ℕ) : List ℕ → Option (List ℕ)
  | [] => none
  | i :: rest => if i + 1 = d then (nextIndex d rest).map (0 :: ·) else some ((i + 1) :: rest)

/-- sampling_gradient_lattice.hpp 484-494: what is done with the element at an index. -/
def recordElement [Zero K] [DecidableEq K] (body : ℕ) (value : List ℕ → K) (table : ElementTable K)
    (index : List ℕ) : ElementTable K :=
  if value index ≠ 0 then
    OMap.set table (index.take body)
      (OMap.set ((OMap.find? table (index.take body)).getD []) (index.drop body) (value index))
  else table

/-- sampling_gradient_lattice.hpp 533-547: the same for the table of hoppings. -/
def recordHopping [Zero K] [DecidableEq K] (body : ℕ) (value : List ℕ → K) (table : ElementTable K)
    (index : List ℕ) : ElementTable K :=
  if value index ≠ 0 then
    if index.take body ≠ index.drop body then
      OMap.set table (index.take body)
        (OMap.set ((OMap.find? table (index.take body)).getD []) (index.drop body) (value index))
    else OMap.emplace table (index.take body) []
  else table

/-- sampling_gradient_lattice.hpp 478-505, 527-558: the loop over all indices, the first one fastest;
`none` if it has not ended after `fuel` rounds. -/
def elementLoop (d : ℕ) (record : ElementTable K → List ℕ → ElementTable K) :
    ℕ → List ℕ → ElementTable K → Option (ElementTable K)
  | 0, _, _ => none
  | fuel + 1, index, table =>
    match nextIndex d index with
    | none => some (record table index)
    | some index' => elementLoop d record fuel index' (record table index)

/-- sampling_gradient_lattice.hpp 461-506 `_find_element` without the cache; `value` is the element with
the indices of `I0`, `I1`, … and `O0`, `O1`, ….  Without edges `index[0]` does not exist; with dimension
zero the element does not exist. -/
def findElement [Zero K] [DecidableEq K] (d body : ℕ) (value : List ℕ → K) :
    Outcome (ElementTable K) :=
  if body = 0 ∨ d = 0 then .ub
  else
    match elementLoop d (recordElement body value) (d ^ (2 * body)) (List.replicate (2 * body) 0) [] with
    | none => .ub
    | some t => .ok t

/-- sampling_gradient_lattice.hpp 510-559 `_find_hopping_element` without the cache -/
def findHopping [Zero K] [DecidableEq K] (d body : ℕ) (value : List ℕ → K) :
    Outcome (ElementTable K) :=
  if body = 0 ∨ d = 0 then .ub
  else
    match elementLoop d (recordHopping body value) (d ^ (2 * body)) (List.replicate (2 * body) 0) [] with
    | none => .ub
    | some t => .ok t

/-- sampling_gradient_lattice.hpp 459-467: the table is kept under the address of the tensor. -/
def findCached (cache : List (ℕ × ElementTable K)) (address : ℕ) (table : Outcome (ElementTable K)) :
    Outcome (ElementTable K × List (ℕ × ElementTable K)) :=
  match OMap.find? cache address with
  | some t => .ok (t, cache)
  | none => table.bind fun t => .ok (t, OMap.set cache address t)

/-- `table.at(spins)` -/
def tableRow (table : ElementTable K) (spins : List ℕ) : Outcome (List (List ℕ × K)) :=
  match OMap.find? table spins with
  | none => .error "map::at"
  | some row => .ok row

/-! ## Configurations -/

/-- A site of the lattice. -/
abbrev LatticeSite (M N : ℕ) := Fin M × Fin N

/-- `configuration` with all spins set. -/
abbrev SpinConfig (M N d : ℕ) := LatticeSite M N → Fin d

/-- Rows one after the other, as in the loops over `i` and `j`. -/
def latticeSites (M N : ℕ) : List (LatticeSite M N) :=
  (List.finRange M).flatMap fun i => (List.finRange N).map fun j => (i, j)

/-- sampling_gradient_lattice.hpp 343-350 `_ergodic_spin` -/
def ergodicSpin {M N d : ℕ} [NeZero d] (c : SpinConfig M N d) (step : ℕ) : SpinConfig M N d :=
  ((latticeSites M N).foldl (fun s x => (Function.update s.1 x (Fin.ofNat d s.2), s.2 / d))
    (c, step)).1

/-- `configuration[x][y]`: a position outside of the lattice is undefined. -/
def siteAt (M N : ℕ) (p : ℤ × ℤ) : Outcome (LatticeSite M N) :=
  if h : (0 ≤ p.1 ∧ p.1 < M) ∧ 0 ≤ p.2 ∧ p.2 < N then
    .ok (⟨p.1.toNat, by omega⟩, ⟨p.2.toNat, by omega⟩)
  else .ub

/-- The sites of a term. -/
def sitesAt (M N : ℕ) : List (ℤ × ℤ) → Outcome (List (LatticeSite M N))
  | [] => .ok []
  | p :: ps => (siteAt M N p).bind fun x => (sitesAt M N ps).bind fun xs => .ok (x :: xs)

/-- `current_spin` -/
def spinsAt {M N d : ℕ} (c : SpinConfig M N d) (xs : List (LatticeSite M N)) : List ℕ :=
  xs.map fun x => (c x).val

/-- `replacement[positions[i]] = spins[i]` for all `i`, then put into the configuration; a missing or
impossible spin is undefined. -/
def replaceSpins {M N d : ℕ} :
    SpinConfig M N d → List (LatticeSite M N) → List ℕ → Outcome (SpinConfig M N d)
  | c, [], _ => .ok c
  | _, _ :: _, [] => .ub
  | c, x :: xs, s :: ss =>
    if h : s < d then replaceSpins (Function.update c x ⟨s, h⟩) xs ss else .ub

/-- auxiliaries_system.hpp 405-465: one site, or two neighbours.  A `std::map` has the sites in order. -/
def replaceable {M N : ℕ} : List (LatticeSite M N) → Bool
  | [] => true
  | [_] => true
  | [a, b] => decide (a.1 = b.1 ∧ a.2.val + 1 = b.2.val) || decide (a.2 = b.2 ∧ a.1.val + 1 = b.1.val)
  | _ => false

/-- sampling_gradient_lattice.hpp 71-84: the amplitude of a changed configuration. -/
def replacedAmplitude {M N d : ℕ} (w : SpinConfig M N d → K) (c : SpinConfig M N d) (ws : K)
    (c' : SpinConfig M N d) : Outcome K :=
  match (latticeSites M N).filter fun x => decide (c x ≠ c' x) with
  | [] => .ok ws
  | l => if replaceable l then .ok (w c') else .error "Unsupported replacement style"

/-- `std::real` and `std::norm` -/
structure ScalarOps (K R : Type) where
  re : K → R
  normSq : K → R

/-- `a / b` -/
def divScalar [Field K] [DecidableEq K] (a b : K) : Outcome K :=
  if b = 0 then .error "nan" else .ok (a / b)

/-! ## Observing -/

/-- sampling_gradient_lattice.hpp 204-215, 298-305: one element of the row. -/
def observeElement [Field K] [DecidableEq K] [Add R] (ops : ScalarOps K R) {M N d : ℕ}
    (w : SpinConfig M N d → K) (c : SpinConfig M N d) (ws : K) (xs : List (LatticeSite M N)) (value : R)
    (e : List ℕ × K) : Outcome R :=
  (replaceSpins c xs e.1).bind fun c' =>
  (replacedAmplitude w c ws c').bind fun wss =>
  (divScalar (e.2 * wss) ws).bind fun q => .ok (value + ops.re q)

/-- sampling_gradient_lattice.hpp 198-216, 291-305: the value of a term in a configuration. -/
def observeTerm [Field K] [DecidableEq K] [Add R] [Zero R] (ops : ScalarOps K R) {M N d : ℕ}
    (w : SpinConfig M N d → K) (c : SpinConfig M N d) (ws : K) (table : ElementTable K)
    (positions : List (ℤ × ℤ)) : Outcome R :=
  (sitesAt M N positions).bind fun xs =>
  (tableRow table (spinsAt c xs)).bind fun row =>
  row.foldlM (observeElement ops w c ws xs) 0

/-- sampling_gradient_lattice.hpp 286-307: one step for one term; the configuration, the sum of the
squares and the sum of the values. -/
def ergodicStep [Field K] [DecidableEq K] [Add R] [Zero R] [Mul R] (ops : ScalarOps K R) {M N d : ℕ}
    [NeZero d] (w : SpinConfig M N d → K) (table : ElementTable K) (positions : List (ℤ × ℤ))
    (s : SpinConfig M N d × R × R) (step : ℕ) : Outcome (SpinConfig M N d × R × R) :=
  let c := ergodicSpin s.1 step
  (observeTerm ops w c (w c) table positions).bind fun value =>
  .ok (c, s.2.1 + ops.normSq (w c), s.2.2 + value * ops.normSq (w c))

/-- sampling_gradient_lattice.hpp 274-341 `ergodic` for one term; `std::pow` is exact. -/
def ergodic [Field K] [DecidableEq K] [Field R] [DecidableEq R] (ops : ScalarOps K R) {M N d : ℕ} [NeZero d]
    (w : SpinConfig M N d → K) (table : ElementTable K) (positions : List (ℤ × ℤ))
    (c : SpinConfig M N d) : Outcome R :=
  ((List.range (d ^ (M * N))).foldlM (ergodicStep ops w table positions) (c, 0, 0)).bind fun s =>
  divScalar s.2.2 s.2.1

/-! ## Markov chain -/

/-- sampling_gradient_lattice.hpp 446-449: whether the hopping is accepted; `n` and `n'` are the numbers of
hoppings from here and from there, `u` the random number.  A division by zero is infinite. -/
def hoppingAccepted [Field R] [LinearOrder R] (q : R) (n n' : ℕ) (u : R) : Bool :=
  if n' = 0 then decide (0 < q) else decide (u < q * n / n')

/-- sampling_gradient_lattice.hpp 416-457 `_markov_single_term`; `r` is the random index, `u` the random
number. -/
def markovTerm [Field K] [DecidableEq K] [Field R] [LinearOrder R] (ops : ScalarOps K R) {M N d : ℕ}
    (w : SpinConfig M N d → K) (table : ElementTable K) (positions : List (ℤ × ℤ))
    (s : SpinConfig M N d × K) (r : ℕ) (u : R) : Outcome (SpinConfig M N d × K) :=
  (sitesAt M N positions).bind fun xs =>
  (tableRow table (spinsAt s.1 xs)).bind fun row =>
  if row = [] then .ok s
  else
    match row[r]? with
    | none => .ub
    | some e =>
      (replaceSpins s.1 xs e.1).bind fun c' =>
      (replacedAmplitude w s.1 s.2 c').bind fun wss =>
      (tableRow table e.1).bind fun row' =>
      (divScalar wss s.2).bind fun q =>
      if hoppingAccepted (ops.normSq q) row.length row'.length u then .ok (c', wss) else .ok s

/-- sampling_gradient_lattice.hpp 368-380 `_markov_spin`: all terms in order, then backwards, each with its
table, its random index and its random number. -/
def markovSweep [Field K] [DecidableEq K] [Field R] [LinearOrder R] (ops : ScalarOps K R) {M N d : ℕ}
    (w : SpinConfig M N d → K) (terms : List (ElementTable K × List (ℤ × ℤ)))
    (s : SpinConfig M N d × K) (random : ℕ → ℕ × R) : Outcome (SpinConfig M N d × K) :=
  (terms ++ terms.reverse).zipIdx.foldlM
    (fun s t => markovTerm ops w t.1.1 t.1.2 s (random t.2).1 (random t.2).2) s

end TAT
