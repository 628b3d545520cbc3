import Verif.Basic.Outcome
import Mathlib.Data.List.Range
import Mathlib.Data.Int.Init
import Mathlib.Logic.Function.Basic

/-!
# The order of the terms and the simple update

include/square/sampling_gradient_lattice.hpp 382-414 and include/square/simple_update_lattice.hpp 54-324.
What is done with the tensors in an update (contractions, `qr`, `svd`, `multiple`, norms) is a parameter;
which tensors and environments go in and come out, on which process, and in which order is modelled.
The lattice is a function of the positions: positions outside of it are not told apart.
-/

namespace TAT

/-- `std::tuple<int, int>` -/
abbrev Pos := ℤ × ℤ

/-- `std::vector<std::tuple<int, int>>`, the key of a term of the Hamiltonian -/
abbrev TermKey := List Pos

/-! ## Markov sampling -/

/-- sampling_gradient_lattice.hpp 386-398: what is looked for at each position, horizontal part; the hint
`h` is `false`. -/
def markovRow (i j : ℤ) : List (TermKey × Bool) :=
  [([(i, j)], false), ([(i, j), (i, j + 1)], false), ([(i, j + 1), (i, j)], false)]

/-- sampling_gradient_lattice.hpp 399-408: vertical part; the hint `v` is `true`. -/
def markovColumn (i j : ℤ) : List (TermKey × Bool) :=
  [([(i, j), (i + 1, j)], true), ([(i + 1, j), (i, j)], true)]

/-- The counters of `for (auto i = 0; i < n; i++)`. -/
def counters (n : ℕ) : List ℤ := (List.range n).map Int.ofNat

/-- What is looked for in `hamiltonians`, in order. -/
def markovCandidates (M N : ℕ) : List (TermKey × Bool) :=
  ((counters M).flatMap fun i => (counters N).flatMap fun j => markovRow i j) ++
  (counters N).flatMap fun j => (counters M).flatMap fun i => markovColumn i j

/-- sampling_gradient_lattice.hpp 382-414 `_markov_sampling_positions_sequence`; `keys` are those of
`hamiltonians`. -/
def markovSequence (M N : ℕ) (keys : List TermKey) : Outcome (List (TermKey × Bool)) :=
  let result := (markovCandidates M N).filter fun e => keys.contains e.1
  if result.length ≠ keys.length then .error "Unsupported markov sampling style" else .ok result

/-! ## Simple update: the groups -/

/-- simple_update_lattice.hpp 143: one site -/
def isSingle : TermKey → Bool
  | [_] => true
  | _ => false

/-- simple_update_lattice.hpp 150-156, 160-166: a horizontal bond whose left site is in a column with
`y % 2 = parity` -/
def isHorizontal (parity : ℤ) : TermKey → Bool
  | [(x1, y1), (x2, y2)] =>
    decide (x1 = x2 ∧ ((y1 + 1 = y2 ∧ y1.tmod 2 = parity) ∨ (y1 = y2 + 1 ∧ y2.tmod 2 = parity)))
  | _ => false

/-- simple_update_lattice.hpp 170-176, 180-186: a vertical bond whose upper site is in a row with
`x % 2 = parity` -/
def isVertical (parity : ℤ) : TermKey → Bool
  | [(x1, y1), (x2, y2)] =>
    decide (y1 = y2 ∧ ((x1 + 1 = x2 ∧ x1.tmod 2 = parity) ∨ (x1 = x2 + 1 ∧ x2.tmod 2 = parity)))
  | _ => false

/-- The five groups. -/
def groupTests : List (TermKey → Bool) :=
  [isSingle, isHorizontal 0, isHorizontal 1, isVertical 0, isVertical 1]

/-- simple_update_lattice.hpp 136-197 `_simple_update_positions_sequence` -/
def updateGroups (keys : List TermKey) : Outcome (List (List TermKey)) :=
  let groups := groupTests.map fun p => keys.filter p
  if (groups.map List.length).sum ≠ keys.length then .error "Unsupported simple update style"
  else .ok groups

/-! ## Simple update: one term -/

/-- The tensors of the lattice and the environments: `env false p` is `environment[{'R', p}]`, `env true p`
is `environment[{'D', p}]`. -/
structure UpdateState (T E : Type) where
  site : Pos → T
  env : Bool → Pos → Option E

/-- The environments around a site, left, up, down and right: simple_update_lattice.hpp 302-324
`try_multiple` -/
def around {T E : Type} (s : UpdateState T E) (p : Pos) : List (Option E) :=
  [s.env false (p.1, p.2 - 1), s.env true (p.1 - 1, p.2), s.env true p, s.env false p]

/-- What an update does with the tensors.  `horizontal u left aroundLeft right aroundRight` gives the two
new tensors and the environment between them, `vertical` the same. -/
structure UpdateOps (U T E : Type) where
  single : U → T → T
  horizontal : U → T → List (Option E) → T → List (Option E) → T × E × T
  vertical : U → T → List (Option E) → T → List (Option E) → T × E × T

/-- simple_update_lattice.hpp 231-234 -/
def updateSingle {U T E : Type} (ops : UpdateOps U T E) (u : U) (p : Pos) (s : UpdateState T E) :
    UpdateState T E :=
  ⟨Function.update s.site p (ops.single u (s.site p)), s.env⟩

/-- simple_update_lattice.hpp 236-267: the left environment of the right site is not used (it is the right
one of the left site). -/
def updateHorizontal {U T E : Type} (ops : UpdateOps U T E) (u : U) (p : Pos) (s : UpdateState T E) :
    UpdateState T E :=
  let q : Pos := (p.1, p.2 + 1)
  let r := ops.horizontal u (s.site p) (around s p) (s.site q) ((around s q).drop 1)
  ⟨Function.update (Function.update s.site p r.1) q r.2.2,
    Function.update s.env false (Function.update (s.env false) p (some r.2.1))⟩

/-- simple_update_lattice.hpp 269-300: the upper environment of the lower site is not used. -/
def updateVertical {U T E : Type} (ops : UpdateOps U T E) (u : U) (p : Pos) (s : UpdateState T E) :
    UpdateState T E :=
  let q : Pos := (p.1 + 1, p.2)
  let r := ops.vertical u (s.site p) (around s p) (s.site q) ((around s q).eraseIdx 1)
  ⟨Function.update (Function.update s.site p r.1) q r.2.2,
    Function.update s.env true (Function.update (s.env true) p (some r.2.1))⟩

/-- simple_update_lattice.hpp 199-229 `_single_term_simple_update` -/
def updateTerm {U T E : Type} (ops : UpdateOps U T E) (u : U) (key : TermKey) (s : UpdateState T E) :
    Outcome (UpdateState T E) :=
  match key with
  | [p] => .ok (updateSingle ops u p s)
  | [p, q] =>
    if p.1 = q.1 ∧ p.2 = q.2 + 1 then .ok (updateHorizontal ops u q s)
    else if p.1 = q.1 ∧ p.2 + 1 = q.2 then .ok (updateHorizontal ops u p s)
    else if p.2 = q.2 ∧ p.1 = q.1 + 1 then .ok (updateVertical ops u q s)
    else if p.2 = q.2 ∧ p.1 + 1 = q.1 then .ok (updateVertical ops u p s)
    else .error "Unsupported simple update style"
  | _ => .error "Unsupported simple update style"

/-- simple_update_lattice.hpp 113-134 `_get_related_environment` -/
def relatedEnvironment (key : TermKey) : Outcome (List (Bool × Pos)) :=
  match key with
  | [_] => .ok []
  | [p, q] =>
    if p.1 = q.1 ∧ p.2 + 1 = q.2 then .ok [(false, p)]
    else if p.1 = q.1 ∧ p.2 = q.2 + 1 then .ok [(false, q)]
    else if p.1 + 1 = q.1 ∧ p.2 = q.2 then .ok [(true, p)]
    else if p.1 = q.1 + 1 ∧ p.2 = q.2 then .ok [(true, q)]
    else .error "Unsupported environment style"
  | _ => .error "Unsupported environment style"

/-! ## Simple update: all processes -/

/-- The state of each process. -/
abbrev Processes (T E : Type) := ℕ → UpdateState T E

/-- simple_update_lattice.hpp 93-99: what process `rank` of `size` does with a group; the index of the first
term is `i`. -/
def updateOwn {U T E : Type} (ops : UpdateOps U T E) (updater : TermKey → Option U) (size rank : ℕ) :
    ℕ → List TermKey → UpdateState T E → Outcome (UpdateState T E)
  | _, [], s => .ok s
  | i, key :: group, s =>
    if i % size = rank then
      match updater key with
      | none => .error "map::at"
      | some u => (updateTerm ops u key s).bind fun s' => updateOwn ops updater size rank (i + 1) group s'
    else updateOwn ops updater size rank (i + 1) group s

/-- simple_update_lattice.hpp 105: all processes get the tensor of the root. -/
def broadcastSite {T E : Type} (root : ℕ) (P : Processes T E) (p : Pos) : Processes T E :=
  fun r => ⟨Function.update (P r).site p ((P root).site p), (P r).env⟩

/-- simple_update_lattice.hpp 108: all processes get the environment of the root, which `operator[]` makes
if there is none. -/
def broadcastEnv {T E : Type} (empty : E) (root : ℕ) (P : Processes T E) (e : Bool × Pos) :
    Processes T E :=
  fun r => ⟨(P r).site, Function.update (P r).env e.1
    (Function.update ((P r).env e.1) e.2 (some (((P root).env e.1 e.2).getD empty)))⟩

/-- simple_update_lattice.hpp 101-110; the index of the first term is `i`. -/
def shareGroup {T E : Type} (empty : E) (size : ℕ) :
    ℕ → List TermKey → Processes T E → Outcome (Processes T E)
  | _, [], P => .ok P
  | i, key :: group, P =>
    (relatedEnvironment key).bind fun es =>
    shareGroup empty size (i + 1) group
      (es.foldl (broadcastEnv empty (i % size)) (key.foldl (broadcastSite (i % size)) P))

/-- The processes run until the barrier: all of them have to get there. -/
def allOwn {U T E : Type} (ops : UpdateOps U T E) (updater : TermKey → Option U) (size : ℕ)
    (group : List TermKey) (P : Processes T E) : ℕ → Outcome (Processes T E)
  | 0 => .ok P
  | n + 1 =>
    (allOwn ops updater size group P n).bind fun Q =>
    (updateOwn ops updater size n 0 group (P n)).bind fun s =>
    .ok (Function.update Q n s)

/-- simple_update_lattice.hpp 90-111 `_single_group_simple_update` on `size` processes -/
def updateGroup {U T E : Type} (ops : UpdateOps U T E) (empty : E) (updater : TermKey → Option U)
    (size : ℕ) (P : Processes T E) (group : List TermKey) : Outcome (Processes T E) :=
  (allOwn ops updater size group P size).bind fun Q => shareGroup empty size 0 group Q

/-- simple_update_lattice.hpp 75-85: all steps of `update` -/
def simpleUpdate {U T E : Type} (ops : UpdateOps U T E) (empty : E) (updater : TermKey → Option U)
    (size steps : ℕ) (keys : List TermKey) (P : Processes T E) : Outcome (Processes T E) :=
  (updateGroups keys).bind fun groups =>
  ((List.replicate steps (groups ++ groups.reverse)).flatten).foldlM
    (updateGroup ops empty updater size) P

/-- What the update is meant to be: one process, one term after the other. -/
def sequentialUpdate {U T E : Type} (ops : UpdateOps U T E) (updater : TermKey → Option U) :
    List TermKey → UpdateState T E → Outcome (UpdateState T E)
  | [], s => .ok s
  | key :: keys, s =>
    match updater key with
    | none => .error "map::at"
    | some u => (updateTerm ops u key s).bind fun s' => sequentialUpdate ops updater keys s'

end TAT
