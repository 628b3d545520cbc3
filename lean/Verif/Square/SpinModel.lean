import Verif.Square.NetModel
import Verif.Square.Model

/-!
# Spin configurations

include/square/sampling_gradient_lattice.hpp 28-90 `SpinConfiguration`: the tensors given to the auxiliaries are
slices of the tensors of the lattice.  A spin of -1 is `none`, other negative spins are left out.
-/

namespace TAT

variable {ν α β : Type} [LinearOrder ν] [Field α] [LinearOrder β] [Field β]

/-- `configuration`, and `lattice` of the base class. -/
structure SpinState (M N : ℕ) (ν α : Type) where
  conf : LatticeSite M N → Option ℕ
  site : LatticeSite M N → Option (Tensor ν NoSymmetry α)

/-- sampling_gradient_lattice.hpp 45-53: nothing is set. -/
def SpinState.empty {M N : ℕ} : SpinState M N ν α := ⟨fun _ => none, fun _ => none⟩

/-- sampling_gradient_lattice.hpp 55-69 `set` -/
def setSpin (e : NetEnv ν α β) {M N : ℕ} (lattice : ℕ → ℕ → Tensor ν NoSymmetry α) (st : SpinState M N ν α)
    (p : Pos) (spin : Option ℕ) : Outcome (SpinState M N ν α) :=
  (siteAt M N p).bind fun x =>
  if st.conf x = spin then .ok st
  else
    match spin with
    | none => .ok ⟨Function.update st.conf x none, Function.update st.site x none⟩
    | some k =>
      (siteAtSpin e (lattice x.1 x.2) k).bind fun t =>
      .ok ⟨Function.update st.conf x (some k), Function.update st.site x (some t)⟩

/-- Several calls of `set`: sampling_gradient_lattice.hpp 138-152 `initialize_spin`, 343-350 `_ergodic_spin` and
the accepted hoppings of 416-457. -/
def setSpins (e : NetEnv ν α β) {M N : ℕ} (lattice : ℕ → ℕ → Tensor ν NoSymmetry α) (st : SpinState M N ν α)
    (l : List (Pos × Option ℕ)) : Outcome (SpinState M N ν α) :=
  l.foldlM (fun st x => setSpin e lattice st x.1 x.2) st

/-- The tensors of the auxiliaries if all are set.  The code fails only if a tensor that is needed has not been
set; here it is enough that one is not set. -/
def SpinState.tensors {M N : ℕ} (st : SpinState M N ν α) : Outcome (ℕ → ℕ → Tensor ν NoSymmetry α) :=
  if ∀ x : LatticeSite M N, (st.site x).isSome then
    .ok fun i j => if h : i < M ∧ j < N then (st.site (⟨i, h.1⟩, ⟨j, h.2⟩)).getD oneTensor else oneTensor
  else .ub

/-- `replacement[position] = spin` in a `std::map` with positions as keys. -/
def assignSpin (p : Pos) (k : ℕ) : List (Pos × ℕ) → List (Pos × ℕ)
  | [] => [(p, k)]
  | q :: l =>
    if p.1 < q.1.1 ∨ p.1 = q.1.1 ∧ p.2 < q.1.2 then (p, k) :: q :: l
    else if p = q.1 then (p, k) :: l
    else q :: assignSpin p k l

/-- sampling_gradient_lattice.hpp 205-208, 299-302, 441-444: the replacement for the spins of several
positions. -/
def assignSpins : List Pos → List ℕ → List (Pos × ℕ) → List (Pos × ℕ)
  | p :: ps, k :: ks, l => assignSpins ps ks (assignSpin p k l)
  | _, _, l => l

/-- sampling_gradient_lattice.hpp 72-78: the slices of the sites which change. -/
def realReplacement (e : NetEnv ν α β) {M N : ℕ} (lattice : ℕ → ℕ → Tensor ν NoSymmetry α)
    (st : SpinState M N ν α) : List (Pos × ℕ) → Outcome (List (Pos × Tensor ν NoSymmetry α))
  | [] => .ok []
  | (p, k) :: l =>
    (siteAt M N p).bind fun x =>
    if st.conf x = some k then realReplacement e lattice st l
    else
      (siteAtSpin e (lattice x.1 x.2) k).bind fun t =>
      (realReplacement e lattice st l).bind fun l => .ok ((p, t) :: l)

/-- sampling_gradient_lattice.hpp 71-84 `operator()(replacement, ws, hint)`; `replacement` is a `std::map`, that is,
in ascending order. -/
def spinReplace (e : NetEnv ν α β) {M N : ℕ} (cut : ℕ) (lattice : ℕ → ℕ → Tensor ν NoSymmetry α)
    (st : SpinState M N ν α) (replacement : List (Pos × ℕ)) (ws : α) (hint : Char) : Outcome α :=
  (realReplacement e lattice st replacement).bind fun real =>
  if real = [] then .ok ws
  else st.tensors.bind fun site => auxReplace e.toAuxEnv ⟨M, N, cut, site⟩ real hint

/-- sampling_gradient_lattice.hpp 86-88 `operator()()` -/
def spinValue (e : NetEnv ν α β) {M N : ℕ} (cut : ℕ) (st : SpinState M N ν α) : Outcome α :=
  st.tensors.bind fun site => auxReplace e.toAuxEnv ⟨M, N, cut, site⟩ [] ' '

/-! ## Sampling -/

variable {R : Type}

/-- `current_spin`; a spin which is not set is -1, which is in no table. -/
def currentSpins {M N : ℕ} (st : SpinState M N ν α) : List (LatticeSite M N) → Outcome (List ℕ)
  | [] => .ok []
  | x :: xs =>
    match st.conf x with
    | none => .error "map::at"
    | some k => (currentSpins st xs).bind fun ks => .ok (k :: ks)

/-- sampling_gradient_lattice.hpp 299-304: one element of the row; `spins_out[i]` has to exist. -/
def spinElement [DecidableEq α] [Add R] (e : NetEnv ν α β) (ops : ScalarOps α R) {M N : ℕ} (cut : ℕ)
    (lattice : ℕ → ℕ → Tensor ν NoSymmetry α) (st : SpinState M N ν α) (ws : α) (ps : List Pos) (value : R)
    (el : List ℕ × α) : Outcome R :=
  if el.1.length < ps.length then .ub
  else
    (spinReplace e cut lattice st (assignSpins ps el.1 []) ws ' ').bind fun wss =>
    (divScalar (el.2 * wss) ws).bind fun q => .ok (value + ops.re q)

/-- sampling_gradient_lattice.hpp 291-305 -/
def spinTerm [DecidableEq α] [Add R] [Zero R] (e : NetEnv ν α β) (ops : ScalarOps α R) {M N : ℕ} (cut : ℕ)
    (lattice : ℕ → ℕ → Tensor ν NoSymmetry α) (st : SpinState M N ν α) (ws : α) (table : ElementTable α)
    (ps : List Pos) : Outcome R :=
  (sitesAt M N ps).bind fun xs =>
  (currentSpins st xs).bind fun spins =>
  (tableRow table spins).bind fun row =>
  row.foldlM (spinElement e ops cut lattice st ws ps) 0

/-- sampling_gradient_lattice.hpp 343-350 `_ergodic_spin`: the calls of `set`. -/
def ergodicSets (d : ℕ) {M N : ℕ} : List (LatticeSite M N) → ℕ → List (Pos × Option ℕ)
  | [], _ => []
  | x :: xs, step => ((((x.1 : ℕ) : ℤ), ((x.2 : ℕ) : ℤ)), some (step % d)) :: ergodicSets d xs (step / d)

/-- sampling_gradient_lattice.hpp 286-307: one step. -/
def spinErgodicStep [DecidableEq α] [Add R] [Zero R] [Mul R] (e : NetEnv ν α β) (ops : ScalarOps α R) {M N : ℕ}
    (d cut : ℕ) (lattice : ℕ → ℕ → Tensor ν NoSymmetry α) (table : ElementTable α) (ps : List Pos)
    (s : SpinState M N ν α × R × R) (step : ℕ) : Outcome (SpinState M N ν α × R × R) :=
  (setSpins e lattice s.1 (ergodicSets d (latticeSites M N) step)).bind fun st =>
  (spinValue e cut st).bind fun ws =>
  (spinTerm e ops cut lattice st ws table ps).bind fun value =>
  .ok (st, s.2.1 + ops.normSq ws, s.2.2 + value * ops.normSq ws)

/-- sampling_gradient_lattice.hpp 274-341 `ergodic` for one term, with the auxiliaries. -/
def spinErgodic [DecidableEq α] [Field R] [DecidableEq R] (e : NetEnv ν α β) (ops : ScalarOps α R) {M N : ℕ}
    (d cut : ℕ) (lattice : ℕ → ℕ → Tensor ν NoSymmetry α) (table : ElementTable α) (ps : List Pos)
    (st : SpinState M N ν α) : Outcome R :=
  ((List.range (d ^ (M * N))).foldlM (spinErgodicStep e ops d cut lattice table ps) (st, 0, 0)).bind fun s =>
  divScalar s.2.2 s.2.1

/-- sampling_gradient_lattice.hpp 416-457 `_markov_single_term`, with the auxiliaries. -/
def spinMarkovTerm [DecidableEq α] [Field R] [LinearOrder R] (e : NetEnv ν α β) (ops : ScalarOps α R) {M N : ℕ}
    (cut : ℕ) (lattice : ℕ → ℕ → Tensor ν NoSymmetry α) (table : ElementTable α) (ps : List Pos) (hint : Char)
    (s : SpinState M N ν α × α) (r : ℕ) (u : R) : Outcome (SpinState M N ν α × α) :=
  (sitesAt M N ps).bind fun xs =>
  (currentSpins s.1 xs).bind fun spins =>
  (tableRow table spins).bind fun row =>
  if row = [] then .ok s
  else
    match row[r]? with
    | none => .ub
    | some el =>
      if el.1.length < ps.length then .ub
      else
        (spinReplace e cut lattice s.1 (assignSpins ps el.1 []) s.2 hint).bind fun wss =>
        (tableRow table el.1).bind fun row' =>
        (divScalar wss s.2).bind fun q =>
        if hoppingAccepted (ops.normSq q) row.length row'.length u then
          (setSpins e lattice s.1 ((ps.zip el.1).map fun p => (p.1, some p.2))).bind fun st => .ok (st, wss)
        else .ok s

/-- sampling_gradient_lattice.hpp 368-380 `_markov_spin`, with the auxiliaries; every term has its table, its
positions and its hint. -/
def spinMarkovSweep [DecidableEq α] [Field R] [LinearOrder R] (e : NetEnv ν α β) (ops : ScalarOps α R) {M N : ℕ}
    (cut : ℕ) (lattice : ℕ → ℕ → Tensor ν NoSymmetry α) (terms : List ((ElementTable α × List Pos) × Char))
    (s : SpinState M N ν α × α) (random : ℕ → ℕ × R) : Outcome (SpinState M N ν α × α) :=
  (terms ++ terms.reverse).zipIdx.foldlM
    (fun s t => spinMarkovTerm e ops cut lattice t.1.1.1 t.1.1.2 t.1.2 s (random t.2).1 (random t.2).2) s

end TAT
