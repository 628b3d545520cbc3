import Verif.Square.MixProps
import Verif.Square.GradProps

/-!
# C75: `equilibrate` runs the Markov chain
-/

namespace TAT

section

variable {K R : Type} [Field K] [DecidableEq K] [Field R] [LinearOrder R] {M N d : ℕ}

/-- Steps one after the other are the visited configurations. -/
theorem steps_visits (ops : ScalarOps K R) (w : SpinConfig M N d → K) (hop : List (ElementTable K × List (ℤ × ℤ)))
    (random : ℕ → ℕ → ℕ × R) (n k : ℕ) (c : SpinConfig M N d) (s : SpinConfig M N d × K) :
    (List.range' k n).foldlM (fun s step => markovSweep ops w hop s (random step)) (c, w c) = .ok s ↔
      ∃ cs : List (SpinConfig M N d), cs.length = n ∧ Visits ops w hop random c k cs ∧
        s = (cs.getLastD c, w (cs.getLastD c)) := by
  induction n generalizing k c with
  | zero =>
    constructor
    · intro h
      exact ⟨[], rfl, trivial, (Outcome.ok.inj h).symm⟩
    · rintro ⟨cs, h1, -, rfl⟩
      rw [List.length_eq_zero_iff.1 h1]
      rfl
  | succ n ih =>
    rw [List.range'_succ, List.foldlM_cons]
    constructor
    · intro h
      obtain ⟨s1, h1, h2⟩ := bind_ok h
      obtain ⟨c1, w1⟩ := s1
      obtain rfl : w1 = w c1 := C57_amplitude _ _ _ _ _ _ h1
      obtain ⟨cs, k1, k2, k3⟩ := (ih (k + 1) c1).1 h2
      exact ⟨c1 :: cs, by rw [List.length_cons, k1], ⟨h1, k2⟩, by rw [k3, List.getLastD_cons]⟩
    · rintro ⟨cs, k1, k2, k3⟩
      cases cs with
      | nil => simp at k1
      | cons c1 cs =>
        obtain ⟨h1, h2⟩ := k2
        rw [h1]
        exact (ih (k + 1) c1).2 ⟨cs, by simpa using k1, h2, by rw [k3, List.getLastD_cons]⟩

end

variable {ν α β R : Type} [LinearOrder ν] [Field α] [LinearOrder β] [Field β] {e : NetEnv ν α β} {M N d : ℕ}
  {lattice : ℕ → ℕ → Tensor ν NoSymmetry α} {h v : ℕ → ℕ → Option ℕ}

/-- **C75.**  `equilibrate` returns if and only if the Markov chain of the amplitudes of the network runs for as many steps;
the spins afterwards are those of the last configuration it visits. -/
theorem C75_equilibrate (he : AuxEnvOk e.toAuxEnv) (hs : SitesOn e.nm M N d lattice h v) [DecidableEq α] [Field R]
    [LinearOrder R] {ops : ScalarOps α R} (hM : 0 < M) (hN : 0 < N)
    {hop : List ((ElementTable α × List Pos) × Char)}
    (ht : ∀ t ∈ hop, (∃ value, findHopping d t.1.2.length value = .ok t.1.1) ∧ ∃ xs, sitesAt M N t.1.2 = .ok xs) :
    ∃ B, ∀ cut, (B ≤ cut ∨ cut = 2 ^ 64 - 1) → ∀ (total : ℕ) (random : ℕ → ℕ → ℕ × R) (st : SpinState M N ν α)
      (c : SpinConfig M N d), HasSpins e lattice st c →
      (∀ st', equilibrate e ops cut lattice hop total random st = .ok st' →
        ∃ cs : List (SpinConfig M N d), cs.length = total ∧
          Visits ops (sitesAmp e.nm h v lattice) (hop.map Prod.fst) random c 0 cs ∧
          HasSpins e lattice st' (cs.getLastD c)) ∧
      ∀ cs : List (SpinConfig M N d), cs.length = total →
        Visits ops (sitesAmp e.nm h v lattice) (hop.map Prod.fst) random c 0 cs →
        ∃ st', equilibrate e ops cut lattice hop total random st = .ok st' := by
  obtain ⟨B1, h1⟩ := C64_markov (ops := ops) he hs hM hN ht
  obtain ⟨B2, h2⟩ := computesAmp he hs hM hN
  refine ⟨max B1 B2, fun cut hc total random st c hst => ?_⟩
  have key : SameOutcome (fun s s' => HasSpins e lattice s.1 s'.1 ∧ s.2 = s'.2)
      ((List.range total).foldlM (fun s step => spinMarkovSweep e ops cut lattice hop s (random step))
        (st, sitesAmp e.nm h v lattice c))
      ((List.range total).foldlM (fun s step => markovSweep ops (sitesAmp e.nm h v lattice) (hop.map Prod.fst) s
        (random step)) (c, sitesAmp e.nm h v lattice c)) := by
    refine SameOutcome.foldlM (fun a b t _ hab => ?_) ⟨hst, rfl⟩
    obtain ⟨a1, a2⟩ := a
    obtain ⟨b1, b2⟩ := b
    obtain ⟨hab1, rfl⟩ : HasSpins e lattice a1 b1 ∧ a2 = b2 := hab
    exact h1 cut (Keeps.le hc (le_max_left _ _)) a1 b1 a2 hab1 (random t)
  rw [equilibrate, (h2 cut (Keeps.le hc (le_max_right _ _))).value c st hst.1 hst.2, Outcome.bind]
  rw [List.range_eq_range'] at key ⊢
  constructor
  · intro st' hst'
    obtain ⟨p, hp, hp'⟩ := bind_ok hst'
    obtain rfl := Outcome.ok.inj hp'
    rw [hp] at key
    cases hm : (List.range' 0 total).foldlM (fun s step => markovSweep ops (sitesAmp e.nm h v lattice)
        (hop.map Prod.fst) s (random step)) (c, sitesAmp e.nm h v lattice c) with
    | ok s =>
      rw [hm] at key
      obtain ⟨cs, k1, k2, rfl⟩ := (steps_visits _ _ _ _ _ _ _ _).1 hm
      exact ⟨cs, k1, k2, key.1⟩
    | error m => rw [hm] at key; exact key.elim
    | ub => rw [hm] at key; exact key.elim
  · intro cs k1 k2
    rw [(steps_visits _ _ _ _ _ _ _ _).2 ⟨cs, k1, k2, rfl⟩] at key
    cases hm : (List.range' 0 total).foldlM (fun s step => spinMarkovSweep e ops cut lattice hop s (random step))
        (st, sitesAmp e.nm h v lattice c) with
    | ok s => exact ⟨s.1, rfl⟩
    | error m => rw [hm] at key; exact key.elim
    | ub => rw [hm] at key; exact key.elim

end TAT
