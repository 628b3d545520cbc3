import Mathlib.Logic.Function.Basic
import Verif.Basic.Outcome

/-!
# Communicating processes

mpi.hpp 142-248.  A process is what is left of its call: sends and receives in order, then a result.
MPI delivers the messages between two processes in order (all messages have the same tag, 140).  A value
is sent as its binary dump (145-149) and read back (157-165); that this gives the same value is C38, here
messages are values.
-/

namespace TAT

variable {V : Type}

/-- The rest of a call on one process. -/
inductive Proc (V : Type) where
  | done (result : V)
  | send (destination : ℕ) (value : V) (next : Proc V)
  | recv (source : ℕ) (next : V → Proc V)

/-- All processes, the messages under way from one process to another, and how many messages every
process has received. -/
structure Net (V : Type) where
  procs : ℕ → Proc V
  chan : ℕ → ℕ → List V
  received : ℕ → ℕ

/-- Replace the messages from `i` to `j`. -/
def setChan (c : ℕ → ℕ → List V) (i j : ℕ) (l : List V) : ℕ → ℕ → List V :=
  fun a b => if a = i ∧ b = j then l else c a b

/-- A step that MPI cannot refuse: the next message is received, or a send meets its receive. -/
inductive NetMust (n : ℕ) : Net V → Net V → Prop where
  | recv (s : Net V) (i src : ℕ) (k : V → Proc V) (v : V) (rest : List V) (hi : i < n) (hsrc : src < n)
      (hp : s.procs i = .recv src k) (hc : s.chan src i = v :: rest) :
      NetMust n s ⟨Function.update s.procs i (k v), setChan s.chan src i rest,
        Function.update s.received i (s.received i + 1)⟩
  | meet (s : Net V) (i j : ℕ) (v : V) (k : Proc V) (k' : V → Proc V) (hi : i < n) (hj : j < n)
      (hp : s.procs i = .send j v k) (hq : s.procs j = .recv i k') (hc : s.chan i j = []) :
      NetMust n s ⟨Function.update (Function.update s.procs i k) j (k' v), s.chan,
        Function.update s.received j (s.received j + 1)⟩

/-- Any step: `MPI_Send` may also return as soon as the message is stored. -/
inductive NetStep (n : ℕ) : Net V → Net V → Prop where
  | must (s s' : Net V) (h : NetMust n s s') : NetStep n s s'
  | send (s : Net V) (i d : ℕ) (v : V) (k : Proc V) (hi : i < n) (hd : d < n)
      (hp : s.procs i = .send d v k) :
      NetStep n s ⟨Function.update s.procs i k, setChan s.chan i d (s.chan i d ++ [v]), s.received⟩

/-- Executions of a number of steps, under any schedule. -/
inductive NetSteps (n : ℕ) : ℕ → Net V → Net V → Prop where
  | refl (s : Net V) : NetSteps n 0 s s
  | tail (k : ℕ) (s s' s'' : Net V) (h : NetSteps n k s s') (h' : NetStep n s' s'') :
      NetSteps n (k + 1) s s''

/-- All processes at the beginning. -/
def netStart (prog : ℕ → Proc V) : Net V := ⟨prog, fun _ _ => [], fun _ => 0⟩

/-- mpi.hpp 188, 222 `this_fake_rank` -/
def fakeRank (size root rank : ℕ) : ℕ := (size + rank - root) % size

/-- mpi.hpp 193, 203, 207 `father_real_rank` and the like -/
def realRank (size root fake : ℕ) : ℕ := (fake + root) % size

/-- mpi.hpp 190-210: the part of `broadcast` after the tests -/
def broadcastTree (size root rank : ℕ) (value : V) : Proc V :=
  let this_fake_rank := fakeRank size root rank
  let left_son_fake_rank := this_fake_rank * 2 + 1
  let right_son_fake_rank := this_fake_rank * 2 + 2
  let right := fun result : V =>
    if right_son_fake_rank < size then .send (realRank size root right_son_fake_rank) result (.done result)
    else .done result
  let left := fun result : V =>
    if left_son_fake_rank < size then .send (realRank size root left_son_fake_rank) result (right result)
    else right result
  if this_fake_rank ≠ 0 then .recv (realRank size root ((this_fake_rank - 1) / 2)) left else left value

/-- mpi.hpp 180-211 `broadcast` -/
def broadcast (size : ℕ) (root : Int) (rank : ℕ) (value : V) : Outcome (Proc V) :=
  if size = 1 then .ok (.done value)
  else if 0 > root ∨ root ≥ size then .error "Invalid root rank when mpi broadcast"
  else .ok (broadcastTree size root.toNat rank value)

/-- mpi.hpp 223-247: the part of `reduce` after the tests.  `junk` is the `result` of 223 that a
process without sons returns. -/
def reduceTree (f : V → V → V) (junk : V) (size root rank : ℕ) (value : V) : Proc V :=
  let this_fake_rank := fakeRank size root rank
  let left_son_fake_rank := this_fake_rank * 2 + 1
  let right_son_fake_rank := this_fake_rank * 2 + 2
  let father := fun result : V =>
    if this_fake_rank ≠ 0 then
      let father_real_rank := realRank size root ((this_fake_rank - 1) / 2)
      if left_son_fake_rank < size then .send father_real_rank result (.done result)
      else .send father_real_rank value (.done result)
    else .done result
  let right := fun result : V =>
    if right_son_fake_rank < size then
      .recv (realRank size root right_son_fake_rank) fun x => father (f result x)
    else father result
  if left_son_fake_rank < size then
    .recv (realRank size root left_son_fake_rank) fun x => right (f value x)
  else right junk

/-- mpi.hpp 213-248 `reduce` -/
def reduce (f : V → V → V) (junk : V) (size : ℕ) (root : Int) (rank : ℕ) (value : V) :
    Outcome (Proc V) :=
  if size = 1 then .ok (.done value)
  else if 0 > root ∨ root ≥ size then .error "Invalid root rank when mpi reduce"
  else .ok (reduceTree f junk size root.toNat rank value)

end TAT
