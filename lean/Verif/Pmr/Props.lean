import Verif.Pmr.Lemmas

/-!
# Property of the memory resource

C44.
-/

namespace TAT

/-- What is assumed of the upstream resource: a buffer is aligned to `max_align_t`, lies in the lower
half of the address space and overlaps none of the buffers in use. -/
def UpstreamOk (buffer bufferSize : ℕ) (up : ArenaRun → ℕ → Option ℕ) : Prop :=
  ∀ r n a, up r n = some a → a % maxAlign = 0 ∧ a + n ≤ 2 ^ 63 ∧
    ∀ b ∈ (buffer, bufferSize) :: r.arena.buffers, a + n ≤ b.1 ∨ b.1 + b.2 ≤ a

/-- What is assumed of the calls: sizes fit `std::size_t`, alignments are powers of two up to
`max_align_t`, and a request for zero bytes is made only if the initial buffer ends at a multiple of
`max_align_t`. -/
def CallOk (buffer bufferSize : ℕ) : ArenaOp → Prop
  | .allocate bytes alignment => bytes < sizeMod ∧ (∃ k ≤ 4, alignment = 2 ^ k) ∧
    (bytes = 0 → (buffer + bufferSize) % maxAlign = 0)
  | _ => True

/-- The claim: blocks are aligned, lie in buffers in use and do not overlap; every buffer obtained is
either in use or has been returned, once, with the size it was obtained with. -/
structure ArenaSound (buffer bufferSize : ℕ) (r : ArenaRun) : Prop where
  aligned : ∀ b ∈ r.blocks, b.1 % b.2.2 = 0
  inside : ∀ b ∈ r.blocks, ∃ u ∈ (buffer, bufferSize) :: r.arena.buffers,
    u.1 ≤ b.1 ∧ b.1 + b.2.1 ≤ u.1 + u.2
  disjoint : r.blocks.Pairwise fun b b' => b.1 + b.2.1 ≤ b'.1 ∨ b'.1 + b'.2.1 ≤ b.1
  balanced : r.obtained.Perm (r.returned ++ r.arena.buffers)

/-- The invariant behind it. -/
structure ArenaInv (buffer bufferSize : ℕ) (r : ArenaRun) : Prop
    extends ArenaSound buffer bufferSize r where
  next_pos : 1 ≤ r.arena.next
  next_lt : r.arena.next < sizeMod
  next_ok : NextOk r.arena.next
  current : ∃ u ∈ (buffer, bufferSize) :: r.arena.buffers,
    u.1 ≤ r.arena.cur ∧ r.arena.cur + r.arena.size = u.1 + u.2
  bound : r.arena.cur + r.arena.size ≤ 2 ^ 63
  free : ∀ b ∈ r.blocks, b.1 + b.2.1 ≤ r.arena.cur ∨ r.arena.cur + r.arena.size ≤ b.1
  stop : (buffer + bufferSize) % maxAlign = 0 → (r.arena.cur + r.arena.size) % maxAlign = 0

theorem allocateFromCurrent_eq {s : Arena} {aligner bytes : ℕ} (h : aligner + bytes ≤ s.size)
    (hb : s.cur + s.size ≤ 2 ^ 63) :
    allocateFromCurrent s aligner bytes =
      (s.cur + aligner, { s with cur := s.cur + aligner + bytes, size := s.size - (aligner + bytes) }) := by
  have hs : sizeMod = 2 ^ 64 := rfl
  unfold allocateFromCurrent
  simp only [hs]
  rw [Nat.mod_eq_of_lt (a := s.cur + aligner) (by omega),
    Nat.mod_eq_of_lt (a := s.cur + aligner + bytes) (by omega),
    Nat.mod_eq_of_lt (a := aligner + bytes) (by omega)]
  have : s.size + 2 ^ 64 - (aligner + bytes) = (s.size - (aligner + bytes)) + 2 ^ 64 := by omega
  rw [this, Nat.add_mod_right, Nat.mod_eq_of_lt (by omega)]

theorem arenaInv_step {buffer bufferSize : ℕ} {up : ArenaRun → ℕ → Option ℕ}
    (hup : UpstreamOk buffer bufferSize up) (hb : buffer + bufferSize ≤ 2 ^ 63)
    {r : ArenaRun} (hr : ArenaInv buffer bufferSize r) {op : ArenaOp}
    (hop : CallOk buffer bufferSize op) :
    ∃ r', arenaStep buffer bufferSize up r op = some r' ∧ ArenaInv buffer bufferSize r' := by
  have hs : sizeMod = 2 ^ 64 := rfl
  have hm : maxAlign = 16 := rfl
  cases op with
  | deallocate a b c => exact ⟨r, rfl, hr⟩
  | release =>
    refine ⟨_, rfl, ⟨?_, ?_, ?_, ?_⟩, ?_, ?_, ?_, ?_, ?_, ?_, ?_⟩
    · simp
    · simp
    · simp
    · dsimp only [arenaRelease]
      rw [List.append_nil]
      exact hr.balanced.trans List.perm_append_comm
    · exact (show 1 ≤ defaultNext by decide)
    · exact (show defaultNext < sizeMod by decide)
    · exact Or.inl (show defaultNext % 16 = 0 by decide)
    · exact ⟨_, List.mem_cons_self, le_refl _, rfl⟩
    · exact hb
    · simp
    · exact id
  | allocate bytes alignment =>
    obtain ⟨hbytes, ⟨k, hk, rfl⟩, hzero⟩ := hop
    have hcur : r.arena.cur ≤ 2 ^ 63 := by have := hr.bound; omega
    obtain ⟨ha1, ha2⟩ := alignerOf_spec (cur := r.arena.cur) hk hcur
    have hp2 : 2 ^ k ≤ 16 := (Nat.pow_le_pow_right (by omega) hk : 2 ^ k ≤ 2 ^ 4)
    have hdvd : 2 ^ k ∣ 16 := (pow_dvd_pow 2 hk : 2 ^ k ∣ 2 ^ 4)
    unfold arenaStep arenaAllocate
    simp only
    by_cases hrem : remainingOf r.arena.size (alignerOf r.arena.cur (2 ^ k)) < bytes
    · rw [if_pos hrem]
      obtain ⟨next, hn1, hn2, hn3, hn4, hn5⟩ :=
        increaseNextTo_default r.arena.next bytes hr.next_pos hr.next_lt hbytes hr.next_ok
      rw [hn1]
      simp only
      cases hu : up r next with
      | none =>
        exact ⟨_, rfl, ⟨hr.aligned, hr.inside, hr.disjoint, hr.balanced⟩,
          le_trans hr.next_pos hn3, hn4, hn5, hr.current, hr.bound, hr.free, hr.stop⟩
      | some a =>
        obtain ⟨hu1, hu2, hu3⟩ := hup r next a hu
        simp only
        rw [allocateFromCurrent_eq (by simpa using hn2) (by simpa using hu2)]
        have key : ∀ b ∈ r.blocks, b.1 + b.2.1 ≤ a ∨ a + next ≤ b.1 := fun b hbm => by
          obtain ⟨u, h1, h2, h3⟩ := hr.inside b hbm
          rcases hu3 u h1 with h | h <;> omega
        have hcons : ∀ u ∈ (buffer, bufferSize) :: r.arena.buffers,
            u ∈ (buffer, bufferSize) :: (a, next) :: r.arena.buffers := fun u h => by
          rcases List.mem_cons.1 h with h | h
          · rw [h]; exact List.mem_cons_self
          · exact List.mem_cons_of_mem _ (List.mem_cons_of_mem _ h)
        have hmem : (a, next) ∈ (buffer, bufferSize) :: (a, next) :: r.arena.buffers :=
          List.mem_cons_of_mem _ List.mem_cons_self
        refine ⟨_, rfl, ⟨?_, ?_, ?_, ?_⟩, ?_, ?_, ?_, ?_, ?_, ?_, ?_⟩
        · intro b hbm
          rcases List.mem_cons.1 hbm with rfl | h
          · exact Nat.mod_eq_zero_of_dvd ((hdvd.trans (Nat.dvd_of_mod_eq_zero hu1)))
          · exact hr.aligned b h
        · intro b hbm
          rcases List.mem_cons.1 hbm with rfl | h
          · exact ⟨_, hmem, le_refl _, by simpa using hn2⟩
          · obtain ⟨u, h1, h2⟩ := hr.inside b h
            exact ⟨u, hcons u h1, h2⟩
        · refine List.pairwise_cons.2 ⟨fun b hbm => ?_, hr.disjoint⟩
          have := key b hbm
          simp only
          omega
        · show ((a, next) :: r.obtained).Perm (r.returned ++ (a, next) :: r.arena.buffers)
          exact (hr.balanced.cons _).trans List.perm_middle.symm
        · have := increaseNext_ge next hn4
          have := hr.next_pos
          show 1 ≤ increaseNext next
          omega
        · exact increaseNext_lt next
        · exact increaseNext_ok next hn5
        · refine ⟨_, hmem, ?_, ?_⟩ <;> simp only <;> omega
        · simp only; omega
        · intro b hbm
          rcases List.mem_cons.1 hbm with rfl | h
          · left; simp
          · have := key b h
            simp only
            omega
        · intro _
          have e : a + 0 + bytes + (next - (0 + bytes)) = a + next := by omega
          simp only [e]
          rw [hm] at *
          rcases hn5 with h | h
          · omega
          · omega
    · rw [if_neg hrem]
      have hfit : alignerOf r.arena.cur (2 ^ k) + bytes ≤ r.arena.size := by
        unfold remainingOf at hrem
        split at hrem
        · rename_i hle
          have h0 : bytes = 0 := by omega
          have h1 := hr.stop (hzero h0)
          rw [hm] at h1
          have h2 : (r.arena.cur + r.arena.size) % 2 ^ k = 0 :=
            Nat.mod_eq_zero_of_dvd (hdvd.trans (Nat.dvd_of_mod_eq_zero h1))
          by_contra hc
          have hlt : r.arena.size < alignerOf r.arena.cur (2 ^ k) := by omega
          have hd := (Nat.dvd_sub (Nat.dvd_of_mod_eq_zero ha1) (Nat.dvd_of_mod_eq_zero h2))
          have := Nat.le_of_dvd (by omega) hd
          omega
        · omega
      rw [allocateFromCurrent_eq hfit hr.bound]
      generalize alignerOf r.arena.cur (2 ^ k) = al at *
      refine ⟨_, rfl, ⟨?_, ?_, ?_, hr.balanced⟩, hr.next_pos, hr.next_lt, hr.next_ok, ?_, ?_, ?_, ?_⟩
      · intro b hbm
        rcases List.mem_cons.1 hbm with rfl | h
        · exact ha1
        · exact hr.aligned b h
      · intro b hbm
        rcases List.mem_cons.1 hbm with rfl | h
        · obtain ⟨u, h1, h2, h3⟩ := hr.current
          refine ⟨u, h1, ?_, ?_⟩ <;> simp only <;> omega
        · exact hr.inside b h
      · refine List.pairwise_cons.2 ⟨fun b hbm => ?_, hr.disjoint⟩
        have := hr.free b hbm
        simp only
        omega
      · obtain ⟨u, h1, h2, h3⟩ := hr.current
        refine ⟨u, h1, ?_, ?_⟩ <;> simp only <;> omega
      · have := hr.bound
        simp only
        omega
      · intro b hbm
        rcases List.mem_cons.1 hbm with rfl | h
        · left; simp
        · have := hr.free b h
          simp only
          omega
      · intro h
        have e : r.arena.cur + al + bytes + (r.arena.size - (al + bytes)) = r.arena.cur + r.arena.size := by
          omega
        simp only [e]
        exact hr.stop h

/-- **C44**: every sequence of calls on a new resource returns, and leaves blocks that are aligned,
lie in buffers in use and do not overlap, and buffers that are returned exactly once. -/
theorem C44_arena_partial {buffer bufferSize : ℕ} {up : ArenaRun → ℕ → Option ℕ}
    (hup : UpstreamOk buffer bufferSize up) (hb : buffer + bufferSize ≤ 2 ^ 63)
    {ops : List ArenaOp} (hops : ∀ op ∈ ops, CallOk buffer bufferSize op) :
    ∃ r, arenaRun buffer bufferSize up ops = some r ∧ ArenaSound buffer bufferSize r := by
  have hs : sizeMod = 2 ^ 64 := rfl
  obtain ⟨n, hn1, -, hn3, hn4, hn5⟩ := increaseNextTo_default defaultNext bufferSize (by decide)
    (by decide) (by omega) (Or.inl rfl)
  have h0 : newArena buffer bufferSize = some ⟨[], buffer, bufferSize, n⟩ := by
    unfold newArena; rw [hn1]; rfl
  unfold arenaRun
  rw [h0, Option.bind_some]
  have hinit : ArenaInv buffer bufferSize ⟨⟨[], buffer, bufferSize, n⟩, [], [], []⟩ := by
    refine ⟨⟨by simp, by simp, by simp, by simp⟩, ?_, hn4, hn5, ?_, hb, by simp, id⟩
    · have : 1 ≤ defaultNext := by decide
      exact le_trans this hn3
    · exact ⟨_, List.mem_cons_self, le_refl _, rfl⟩
  suffices h : ∀ r0, ArenaInv buffer bufferSize r0 →
      ∃ r, ops.foldlM (arenaStep buffer bufferSize up) r0 = some r ∧ ArenaInv buffer bufferSize r by
    obtain ⟨r, h1, h2⟩ := h _ hinit
    exact ⟨r, h1, h2.toArenaSound⟩
  clear hinit h0
  induction ops with
  | nil => exact fun r0 h => ⟨r0, rfl, h⟩
  | cons op ops ih =>
    intro r0 h
    obtain ⟨r1, h1, h2⟩ := arenaInv_step hup hb h (hops op List.mem_cons_self)
    obtain ⟨r, h3, h4⟩ := ih (fun o ho => hops o (List.mem_cons_of_mem _ ho)) r1 h2
    refine ⟨r, ?_, h4⟩
    rw [List.foldlM_cons, h1]
    exact h3

/-- **C44**: after the final release, as in the destructor (121-123), exactly the buffers obtained have
been returned. -/
theorem C44_destroyed_partial {buffer bufferSize : ℕ} {up : ArenaRun → ℕ → Option ℕ}
    (hup : UpstreamOk buffer bufferSize up) (hb : buffer + bufferSize ≤ 2 ^ 63)
    {ops : List ArenaOp} (hops : ∀ op ∈ ops, CallOk buffer bufferSize op) :
    ∃ r, arenaRun buffer bufferSize up (ops ++ [.release]) = some r ∧
      r.obtained.Perm r.returned := by
  obtain ⟨r, h1, h2⟩ := C44_arena_partial hup hb (ops := ops) hops
  refine ⟨⟨(arenaRelease buffer bufferSize r.arena).2, [], r.obtained, r.arena.buffers ++ r.returned⟩, ?_,
    h2.balanced.trans List.perm_append_comm⟩
  unfold arenaRun at *
  cases h : newArena buffer bufferSize with
  | none => rw [h] at h1; exact absurd h1 (by simp)
  | some s =>
    rw [h, Option.bind_some] at h1
    rw [Option.bind_some, List.foldlM_append, h1]
    rfl

/-- An upstream resource that puts one buffer behind the other, from address 2^20 on. -/
def sampleUpstream (r : ArenaRun) (n : ℕ) : Option ℕ :=
  let a := (r.arena.buffers.map fun b => b.1 + b.2 + 16).foldl max (2 ^ 20)
  let a := (a + 15) / 16 * 16
  if a + n ≤ 2 ^ 63 then some a else none

theorem foldl_max_le (l : List ℕ) (m x : ℕ) (h : x ∈ m :: l) : x ≤ l.foldl max m := by
  induction l generalizing m x with
  | nil => exact (List.mem_singleton.1 h).le
  | cons a l ih =>
    rw [List.foldl_cons]
    rcases List.mem_cons.1 h with rfl | h
    · exact le_trans (le_max_left x a) (ih _ _ List.mem_cons_self)
    · rcases List.mem_cons.1 h with rfl | h
      · exact le_trans (le_max_right m x) (ih _ _ List.mem_cons_self)
      · exact ih _ _ (List.mem_cons_of_mem _ h)

/-- The hypotheses can be met: the buffer of `scope_resource` at an address that is a multiple of 8. -/
example : UpstreamOk 24 32768 sampleUpstream ∧
    (∀ op ∈ [ArenaOp.allocate 32760 1, .allocate 8 16, .allocate 1000 8, .deallocate 24 32760 1,
      .release, .allocate 5 4], CallOk 24 32768 op) := by
  constructor
  · intro r n a h
    unfold sampleUpstream at h
    simp only at h
    split at h
    · rename_i hc
      obtain rfl : _ = a := Option.some.inj h
      refine ⟨Nat.mul_mod_left _ _, hc, fun b hb => ?_⟩
      right
      rcases List.mem_cons.1 hb with rfl | hb
      · have := foldl_max_le (r.arena.buffers.map fun b => b.1 + b.2 + 16) (2 ^ 20) (2 ^ 20)
          List.mem_cons_self
        simp only
        omega
      · have := foldl_max_le (r.arena.buffers.map fun b => b.1 + b.2 + 16) (2 ^ 20) (b.1 + b.2 + 16)
          (List.mem_cons_of_mem _ (List.mem_map.2 ⟨b, hb, rfl⟩))
        omega
    · cases h
  · intro op h
    simp only [List.mem_cons, List.not_mem_nil, or_false] at h
    rcases h with rfl | rfl | rfl | rfl | rfl | rfl
    · exact ⟨by decide, ⟨0, by omega, rfl⟩, by omega⟩
    · exact ⟨by decide, ⟨4, by omega, rfl⟩, by omega⟩
    · exact ⟨by decide, ⟨3, by omega, rfl⟩, by omega⟩
    · trivial
    · trivial
    · exact ⟨by decide, ⟨2, by omega, rfl⟩, by omega⟩

/-- **C44** fails for requests of zero bytes when the initial buffer does not end at a multiple of 16,
as the one of `scope_resource` (252-260), which is only aligned to 8: the size of the rest of the buffer
wraps around (141, 147), and the next request, of a million bytes, is answered with memory behind the
end of the buffer. -/
theorem C44_zero_bytes_overrun :
    ∃ r, arenaRun 24 32768 sampleUpstream
        [.allocate 32764 1, .allocate 0 16, .allocate 1000000 1] = some r ∧
      (32800, 1000000, 1) ∈ r.blocks ∧ r.arena.buffers = [] ∧ 24 + 32768 < 32800 := by
  refine ⟨(arenaRun 24 32768 sampleUpstream
    [.allocate 32764 1, .allocate 0 16, .allocate 1000000 1]).get (by decide +kernel), ?_⟩
  decide +kernel

/-- **C44** fails for alignments above `max_align_t`: a new buffer is used from its beginning whatever
the alignment (154-161). -/
theorem C44_over_aligned :
    ∃ r, arenaRun 24 0 (fun _ _ => some 1048592) [.allocate 64 32] = some r ∧
      (1048592, 64, 32) ∈ r.blocks ∧ 1048592 % 32 ≠ 0 := by
  refine ⟨(arenaRun 24 0 (fun _ _ => some 1048592) [.allocate 64 32]).get (by decide +kernel), ?_⟩
  decide +kernel

end TAT
