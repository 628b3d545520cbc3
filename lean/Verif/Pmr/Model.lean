import Mathlib.Data.Nat.Bitwise

/-!
# Memory resources

pmr_resource.hpp 84-169 `monotonic_buffer_resource`.  Addresses and sizes are natural numbers below
`2 ^ 64`, with the wrap-around of `std::size_t` written out.  The contents of the memory, which the
resource never touches, are not modelled; neither is the cost of the list nodes of `m_buffer_list`,
which come from the ordinary heap.
-/

namespace TAT

/-- The number of values of `std::size_t`. -/
def sizeMod : ℕ := 2 ^ 64

/-- `alignof(std::max_align_t)` -/
def maxAlign : ℕ := 16

/-- pmr_resource.hpp 85-89, without the constant members. -/
structure Arena where
  buffers : List (ℕ × ℕ)
  cur : ℕ
  size : ℕ
  next : ℕ
deriving DecidableEq, Repr

/-- pmr_resource.hpp 93 `32u * sizeof(void*)` -/
def defaultNext : ℕ := 256

/-- pmr_resource.hpp 108-110 `increase_next_size` -/
def increaseNext (n : ℕ) : ℕ := if (sizeMod - 1) / 2 < n then sizeMod - 1 else n * 2

/-- pmr_resource.hpp 111-115 `increase_next_size_to`.  `none` if the loop has not ended after `fuel`
rounds. -/
def increaseNextTo : ℕ → ℕ → ℕ → Option ℕ
  | 0, n, minimum => if n < minimum then none else some n
  | fuel + 1, n, minimum =>
    if n < minimum then increaseNextTo fuel (increaseNext n) minimum else some n

/-- pmr_resource.hpp 96-105 the constructor -/
def newArena (buffer bufferSize : ℕ) : Option Arena :=
  (increaseNextTo 64 defaultNext bufferSize).map fun next => ⟨[], buffer, bufferSize, next⟩

/-- pmr_resource.hpp 136-140: the distance to the next aligned address -/
def alignerOf (cur alignment : ℕ) : ℕ :=
  let up_alignment_minus1 := alignment - 1
  let up_alignment_mask := sizeMod - 1 - up_alignment_minus1
  let up_aligned_addr := ((cur + up_alignment_minus1) % sizeMod) &&& up_alignment_mask
  (up_aligned_addr + sizeMod - cur) % sizeMod

/-- pmr_resource.hpp 141 -/
def remainingOf (size aligner : ℕ) : ℕ := if size ≤ aligner then 0 else size - aligner

/-- pmr_resource.hpp 144-149 `allocate_from_current` -/
def allocateFromCurrent (s : Arena) (aligner bytes : ℕ) : ℕ × Arena :=
  let result := (s.cur + aligner) % sizeMod
  (result, { s with
    cur := (result + bytes) % sizeMod
    size := (s.size + sizeMod - (aligner + bytes) % sizeMod) % sizeMod })

/-- The result of an allocation: the address, an exception of the upstream resource, or an endless
loop. -/
inductive AllocResult where
  | ok (address : ℕ) (newBuffer : Option (ℕ × ℕ)) (s : Arena)
  | throw (s : Arena)
  | loop
deriving DecidableEq

/-- pmr_resource.hpp 151-162 `do_allocate`; `up` is `m_upstream->allocate` for the given size. -/
def arenaAllocate (up : ℕ → Option ℕ) (s : Arena) (bytes alignment : ℕ) : AllocResult :=
  let aligner := alignerOf s.cur alignment
  if remainingOf s.size aligner < bytes then
    match increaseNextTo 64 s.next bytes with
    | none => .loop
    | some next =>
      match up next with
      | none => .throw { s with next }
      | some address =>
        let r := allocateFromCurrent
          ⟨(address, next) :: s.buffers, address, next, increaseNext next⟩ 0 bytes
        .ok r.1 (some (address, next)) r.2
  else
    let r := allocateFromCurrent s aligner bytes
    .ok r.1 none r.2

/-- pmr_resource.hpp 125-133 `release`: the buffers returned to the upstream resource, and the arena. -/
def arenaRelease (buffer bufferSize : ℕ) (s : Arena) : List (ℕ × ℕ) × Arena :=
  (s.buffers, ⟨[], buffer, bufferSize, defaultNext⟩)

/-- The calls of a user.  164 `do_deallocate` does nothing. -/
inductive ArenaOp where
  | allocate (bytes alignment : ℕ)
  | deallocate (address bytes alignment : ℕ)
  | release
deriving DecidableEq

/-- An execution so far: the arena, the blocks handed out since the last release (address, size,
alignment), all buffers obtained from the upstream resource and all buffers returned to it. -/
structure ArenaRun where
  arena : Arena
  blocks : List (ℕ × ℕ × ℕ)
  obtained : List (ℕ × ℕ)
  returned : List (ℕ × ℕ)
deriving DecidableEq

/-- One call.  The upstream resource may answer according to everything that has happened.  An
exception leaves the arena usable.  `none`: the call does not return. -/
def arenaStep (buffer bufferSize : ℕ) (up : ArenaRun → ℕ → Option ℕ) (r : ArenaRun) :
    ArenaOp → Option ArenaRun
  | .allocate bytes alignment =>
    match arenaAllocate (up r) r.arena bytes alignment with
    | .ok p b s => some ⟨s, (p, bytes, alignment) :: r.blocks, b.toList ++ r.obtained, r.returned⟩
    | .throw s => some { r with arena := s }
    | .loop => none
  | .deallocate _ _ _ => some r
  | .release =>
    let (l, s) := arenaRelease buffer bufferSize r.arena
    some ⟨s, [], r.obtained, l ++ r.returned⟩

/-- A sequence of calls on a new arena. -/
def arenaRun (buffer bufferSize : ℕ) (up : ArenaRun → ℕ → Option ℕ) (ops : List ArenaOp) :
    Option ArenaRun :=
  (newArena buffer bufferSize).bind fun s =>
    ops.foldlM (arenaStep buffer bufferSize up) ⟨s, [], [], []⟩

end TAT
