import Mathlib.Data.Nat.Basic
import Verif.Basic.Outcome

/-!
# Random engines of communicating processes

include/square/basic.hpp 141-184.  Every process has its own `random::engine`; here the engines of all processes are
a function of the rank.  `MPI_Bcast` is a call of all processes: all get what the root has, and when only some of them
call it these do not return (the comment in 163).  What is printed is left out.
-/

namespace TAT

/-- What the standard library says about an engine: the state after `engine.seed(value)`, and the result of
`std::uniform_int_distribution<std::uint32_t>(1)(engine)` with the state after it.  The distribution has the bounds 1
and the largest `std::uint32_t`. -/
structure RandomEngine (E : Type) where
  seed : ℕ → E
  draw : E → ℕ × E
  positive : ∀ e, 0 < (draw e).1
  small : ∀ e, (draw e).1 < 2 ^ 32

variable {E : Type}

/-- basic.hpp 149-157 `get_seed` on all processes; `device` is the value of `std::random_device` on process 0. -/
def getSeed (device : ℕ) (seed : ℕ → ℕ) : ℕ → ℕ :=
  let root := if seed 0 = 0 then device else seed 0
  fun _ => root

/-- basic.hpp 166-172 `seed` on the processes below `size`, each with its argument; the processes with zero call
`get_seed()`, which has zero as default. -/
def seedAll (r : RandomEngine E) (device size : ℕ) (seed : ℕ → ℕ) : Outcome (ℕ → E) :=
  if (List.range size).all fun i => seed i ≠ 0 then .ok fun i => r.seed (seed i)
  else if (List.range size).all fun i => seed i = 0 then .ok fun i => r.seed (getSeed device (fun _ => 0) i)
  else .error "MPI_Bcast is not called by all processes"

/-- basic.hpp 174-178 `split_seed`; the sum of a `std::uint32_t` and an `int` is a `std::uint32_t`. -/
def splitSeed (r : RandomEngine E) (engine : ℕ → E) : ℕ → E :=
  fun rank => r.seed (((r.draw (engine rank)).1 + rank) % 2 ^ 32)

/-- basic.hpp 179-183 `merge_seed` -/
def mergeSeed (r : RandomEngine E) (device : ℕ) (engine : ℕ → E) : ℕ → E :=
  fun rank => r.seed (getSeed device (fun i => (r.draw (engine i)).1) rank)

/-- sampling_gradient_lattice.hpp 191-235: the engines during `markov`; between the two calls every process uses its
engine on its own, `use` is what becomes of it. -/
def markovEngines (r : RandomEngine E) (device : ℕ) (use : ℕ → E → E) (engine : ℕ → E) : ℕ → E :=
  mergeSeed r device fun rank => use rank (splitSeed r engine rank)

/-! basic.hpp 141: `std::default_random_engine` is chosen by the standard library.  The GNU library takes
`std::minstd_rand0`, a linear congruential engine with multiplier 16807, increment 0 and modulus 2147483647
(C++17 [rand.eng.lcong], [rand.predef]). -/

/-- The modulus of `std::minstd_rand0`. -/
def lcgModulus : ℕ := 2147483647

/-- The multiplier of `std::minstd_rand0`. -/
def lcgFactor : ℕ := 16807

/-- [rand.eng.lcong] 5: the state after seeding, which is 1 if the value is a multiple of the modulus. -/
def lcgSeed (value : ℕ) : ℕ := if value % lcgModulus = 0 then 1 else value % lcgModulus

/-- [rand.eng.lcong] 1: one transition; the new state is also the number which is returned. -/
def lcgNext (state : ℕ) : ℕ := lcgFactor * state % lcgModulus

/-- The `k`-th number after the state, where number 0 is the state. -/
def lcgStream (state : ℕ) : ℕ → ℕ
  | 0 => state
  | k + 1 => lcgNext (lcgStream state k)

end TAT
