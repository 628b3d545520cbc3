import Verif.Square.SimpleRun

/-!
# C65: the simple update applies the terms to the state
-/

namespace TAT

variable {ν α β : Type} [LinearOrder ν] [Field α] [LinearOrder β] [Field β] [IsStrictOrderedRing β]
  {e : NetEnv ν α β} {M N d : ℕ}

/-- **C65.**  A term on one site multiplies the state with its operator, exactly. -/
theorem C65_single (he : NetEnvOk e) {s : NetState ν α β} {h v : ℕ → ℕ → Option ℕ}
    (hs : NetworkOn e.nm M N d s h v) (x : LatticeSite M N) {U : Tensor ν NoSymmetry α}
    (hU : OperatorOn d 1 e.nm U) :
    ∃ s', (∀ D, updateTerm (netOps e D) U [sitePos x] (okState s) = .ok (okState s')) ∧
      NetworkOn e.nm M N d s' h v ∧
      ∀ y : SpinConfig M N d, networkAmp e.nm e.c h v s' y =
        actOn [x] (matrixElement e.nm U) (networkAmp e.nm e.c h v s) y := by
  obtain ⟨s', h1, h2, h3⟩ := single_step he hs hU x.1.2 x.2.2
  exact ⟨s', fun D => congrArg Outcome.ok (h1 D), h2, h3⟩

/-- **C65.**  A term on two sites next to each other, without truncation: if no environment around the bond
has a zero and the operator does not annihilate the state, the state is multiplied with the operator and a
factor, and is again a lattice with environments. -/
theorem C65_term (he : NetEnvOk e) {s : NetState ν α β} {h v : ℕ → ℕ → Option ℕ}
    (hs : NetworkOn e.nm M N d s h v) {key : TermKey} {xs : List (LatticeSite M N)} (hx : TermOf key xs)
    {U : Tensor ν NoSymmetry α} (hU : OperatorOn d xs.length e.nm U)
    (hz : ∀ S ∈ environmentsAround s xs, NoZero S)
    (hne : ∃ x : SpinConfig M N d, actOn xs (matrixElement e.nm U) (networkAmp e.nm e.c h v s) x ≠ 0) :
    ∃ K s' h' v' κ, κ ≠ 0 ∧
      (∀ D, Keeps K D → updateTerm (netOps e D) U key (okState s) = .ok (okState s')) ∧
      NetworkOn e.nm M N d s' h' v' ∧
      ∀ x : SpinConfig M N d, networkAmp e.nm e.c h' v' s' x =
        κ * actOn xs (matrixElement e.nm U) (networkAmp e.nm e.c h v s) x := by
  obtain ⟨K, -, k2⟩ := term_step he hs hx hU
  rcases k2 hz with ⟨s', κ, q1, q2, q3, q4, -⟩ | ⟨-, q⟩
  · exact ⟨K, s', _, _, κ, q1, q2, q3, q4⟩
  · obtain ⟨x, hx⟩ := hne
    exact absurd (q x) hx

/-- **C65.**  The way over the exact lattice: the vector made from the lattice, to which the exact lattice then
applies the term, is up to a factor the vector made from the lattice after the update. -/
theorem C65_commutes {ρ : Type} [LinearOrder ρ] [Field ρ] (he : NetEnvOk e) {f : ExactEnv ν α ρ} (hf : ExactEnvOk f)
    (hnm : f.nm = e.nm) {s : NetState ν α β} {h v : ℕ → ℕ → Option ℕ}
    (hs : NetworkOn e.nm M N d s h v) {xs : List (LatticeSite M N)} (hx : TermOf (xs.map sitePos) xs)
    {U : Tensor ν NoSymmetry α} (hU : OperatorOn d xs.length e.nm U)
    (hz : ∀ S ∈ environmentsAround s xs, NoZero S)
    (hne : ∃ x : SpinConfig M N d, actOn xs (matrixElement e.nm U) (networkAmp e.nm e.c h v s) x ≠ 0) :
    ∃ K s' w u w' c,
      (∀ D, Keeps K D → updateTerm (netOps e D) U (xs.map sitePos) (okState s) = .ok (okState s')) ∧
      exactOfUpdate e M N s = .ok w ∧ applyTerm f w (xs.map sitePos, U) = .ok u ∧
      exactOfUpdate e M N s' = .ok w' ∧ c ≠ 0 ∧
      ∀ x : SpinConfig M N d, amplitude e.nm w' x = c * amplitude e.nm u x := by
  obtain ⟨K, s', h', v', κ, q1, q2, q3, q4⟩ := C65_term he hs hx hU hz hne
  obtain ⟨x0, hx0⟩ := hne
  rcases C63_exact_of_update he hs with ⟨w, a, a1, a2, a3, a4⟩ | ⟨-, a1⟩
  · rcases C63_exact_of_update he q3 with ⟨w', b, b1, b2, b3, b4⟩ | ⟨-, b1⟩
    · obtain ⟨u, c1, c2, c3⟩ := applyTerm_ok hf (M := M) (N := N) (d := d) (by rw [hnm]; exact a2) hx.nodup
        (by rw [hnm]; exact hU)
      rw [hnm] at c3
      refine ⟨K, s', w, u, w', b * κ / a, q2, a1, c1, b1, div_ne_zero (mul_ne_zero b3 q1) a3, fun x => ?_⟩
      rw [c3, show amplitude e.nm w = fun x : SpinConfig M N d => a * networkAmp e.nm e.c h v s x from funext a4,
        actOn_mul, b4, q4]
      field_simp
    · have := b1 x0
      rw [q4] at this
      exact absurd ((mul_eq_zero.1 this).resolve_left q1) hx0
  · exfalso
    apply hx0
    rw [show networkAmp e.nm e.c h v s = fun x : SpinConfig M N d => 0 * (0 : α) from
      funext fun x => by rw [a1 x, zero_mul], actOn_mul xs _ 0 fun _ => 0]
    exact zero_mul _

/-- **C65.**  A zero in an environment around the bond spoils the tensors, whether the dimension is cut or not:
the code divides by it. -/
theorem C65_zero_environment (he : NetEnvOk e) {s : NetState ν α β} {h v : ℕ → ℕ → Option ℕ}
    (hs : NetworkOn e.nm M N d s h v) {key : TermKey} {xs : List (LatticeSite M N)} (hx : TermOf key xs)
    {U : Tensor ν NoSymmetry α} (hU : OperatorOn d xs.length e.nm U)
    (hz : ∃ S ∈ environmentsAround s xs, ¬ NoZero S) :
    ∀ D, D ≠ 0 → ∃ st, updateTerm (netOps e D) U key (okState s) = .ok st ∧ Spoiled st := by
  obtain ⟨K, k1, -⟩ := term_step he hs hx hU
  exact fun D hD => k1 hz D (keeps_or_cuts K hD)

/-- The terms `keys` turn the lattice `s` into the lattice `s'` for all cuts which keep `B` numbers, and the
state is multiplied with the operators of the terms and the factor `κ`. -/
structure Reaches (e : NetEnv ν α β) (d : ℕ) (updater : TermKey → Option (Tensor ν NoSymmetry α))
    (sites : TermKey → List (LatticeSite M N)) (op : TermKey → Tensor ν NoSymmetry α) (B : ℕ) (keys : List TermKey)
    (s : NetState ν α β) (h v : ℕ → ℕ → Option ℕ) (s' : NetState ν α β) (h' v' : ℕ → ℕ → Option ℕ) (κ : α) : Prop where
  ne : κ ≠ 0
  run : ∀ D, Keeps B D → sequentialUpdate (netOps e D) updater keys (okState s) = .ok (okState s')
  on : NetworkOn e.nm M N d s' h' v'
  amp : ∀ x : SpinConfig M N d, networkAmp e.nm e.c h' v' s' x =
    κ * actTerms e.nm sites op keys (networkAmp e.nm e.c h v s) x

/-- **C65.**  One term after the other, without truncation: the state is multiplied with all the operators in
this order and a factor.  The run is spoiled only if at some term an environment around the bond has a zero,
or the operators up to this term annihilate the state. -/
theorem C65_run (he : NetEnvOk e) (updater : TermKey → Option (Tensor ν NoSymmetry α))
    (sites : TermKey → List (LatticeSite M N)) (op : TermKey → Tensor ν NoSymmetry α) (keys : List TermKey)
    (hk : ∀ k ∈ keys, updater k = some (op k) ∧ TermOf k (sites k) ∧ OperatorOn d (sites k).length e.nm (op k))
    {s : NetState ν α β} {h v : ℕ → ℕ → Option ℕ} (hs : NetworkOn e.nm M N d s h v) :
    ∃ B, (∃ s' h' v' κ, Reaches e d updater sites op B keys s h v s' h' v' κ) ∨
      ∃ l k l' s' h' v' κ, keys = l ++ k :: l' ∧ Reaches e d updater sites op B l s h v s' h' v' κ ∧
        ((∃ S ∈ environmentsAround s' (sites k), ¬ NoZero S) ∨
          ∀ x : SpinConfig M N d, actTerms e.nm sites op (l ++ [k]) (networkAmp e.nm e.c h v s) x = 0) ∧
        ∀ D, Keeps B D → ∃ st, sequentialUpdate (netOps e D) updater keys (okState s) = .ok st ∧ Spoiled st := by
  have nil : ∀ (B : ℕ) (s : NetState ν α β) (h v : ℕ → ℕ → Option ℕ), NetworkOn e.nm M N d s h v →
      Reaches e d updater sites op B [] s h v s h v 1 := fun B s h v hs =>
    ⟨one_ne_zero, fun _ _ => rfl, hs, fun x => (one_mul _).symm⟩
  induction keys generalizing s h v with
  | nil => exact ⟨0, Or.inl ⟨s, h, v, 1, nil 0 s h v hs⟩⟩
  | cons k l ih =>
    obtain ⟨u1, u2, u3⟩ := hk k (by simp)
    have hl : ∀ k ∈ l, updater k = some (op k) ∧ TermOf k (sites k) ∧ OperatorOn d (sites k).length e.nm (op k) :=
      fun k hk' => hk k (by simp [hk'])
    have step : ∀ D (l : List TermKey) st, updateTerm (netOps e D) (op k) k (okState s) = .ok st →
        sequentialUpdate (netOps e D) updater (k :: l) (okState s) = sequentialUpdate (netOps e D) updater l st := by
      intro D l st hst
      rw [sequentialUpdate, u1]
      simp only []
      rw [hst]
      rfl
    have spoil : ∀ D, (∃ st, updateTerm (netOps e D) (op k) k (okState s) = .ok st ∧ Spoiled st) →
        ∃ st, sequentialUpdate (netOps e D) updater (k :: l) (okState s) = .ok st ∧ Spoiled st := by
      rintro D ⟨st, h1, h2⟩
      rw [step D l st h1]
      exact h2.run D fun k hk => ⟨op k, (hl k hk).2.1.bond.choose, (hl k hk).1, (hl k hk).2.1.bond.choose_spec⟩
    obtain ⟨K, k1, k2⟩ := term_step he hs u2 u3
    by_cases hz : ∀ S ∈ environmentsAround s (sites k), NoZero S
    · rcases k2 hz with ⟨s1, κ, q1, q2, q3, q4, -⟩ | ⟨q1, q2⟩
      · obtain ⟨h1, v1, q3, q4⟩ : ∃ h1 v1, NetworkOn e.nm M N d s1 h1 v1 ∧ ∀ x : SpinConfig M N d,
            networkAmp e.nm e.c h1 v1 s1 x =
              κ * actOn (sites k) (matrixElement e.nm (op k)) (networkAmp e.nm e.c h v s) x := ⟨_, _, q3, q4⟩
        obtain ⟨B, hB⟩ := ih hl q3
        have amp : networkAmp e.nm e.c h1 v1 s1 = fun x : SpinConfig M N d =>
            κ * actOn (sites k) (matrixElement e.nm (op k)) (networkAmp e.nm e.c h v s) x := funext q4
        have lift : ∀ l' s' h' v' κ', Reaches e d updater sites op B l' s1 h1 v1 s' h' v' κ' →
            Reaches e d updater sites op (max K B) (k :: l') s h v s' h' v' (κ' * κ) := by
          intro l' s' h' v' κ' hr
          refine ⟨mul_ne_zero hr.ne q1, fun D hD => ?_, hr.on, fun x => ?_⟩
          · rw [step D l' _ (q2 D (hD.mono (le_max_left _ _)))]
            exact hr.run D (hD.mono (le_max_right _ _))
          · rw [hr.amp, amp, actTerms_mul, mul_assoc]
            rfl
        refine ⟨max K B, ?_⟩
        rcases hB with ⟨s', h', v', κ', hr⟩ | ⟨a, k', b, s', h', v', κ', e1, hr, hw, hsp⟩
        · exact Or.inl ⟨s', h', v', _, lift _ _ _ _ _ hr⟩
        · refine Or.inr ⟨k :: a, k', b, s', h', v', _, by rw [e1]; rfl, lift _ _ _ _ _ hr, ?_, fun D hD => ?_⟩
          · rcases hw with hw | hw
            · exact Or.inl hw
            · refine Or.inr fun x => ?_
              have := hw x
              rw [amp, actTerms_mul] at this
              exact (mul_eq_zero.1 this).resolve_left q1
          · rw [step D l _ (q2 D (hD.mono (le_max_left _ _)))]
            exact hsp D (hD.mono (le_max_right _ _))
      · exact ⟨K, Or.inr ⟨[], k, l, s, h, v, 1, rfl, nil K s h v hs, Or.inr q2, fun D hD => spoil D (q1 D (Or.inl hD))⟩⟩
    · push Not at hz
      exact ⟨K, Or.inr ⟨[], k, l, s, h, v, 1, rfl, nil K s h v hs, Or.inl hz, fun D hD => spoil D (k1 hz D (Or.inl hD))⟩⟩

/-- **C65.**  `update` on any number of processes: all of them end with one lattice whose state is that of the
lattice at the beginning, multiplied with the operators of the terms in the sequence of C59 and a factor; or
all of them end with a spoiled lattice, for one of the two reasons. -/
theorem C65_parallel (he : NetEnvOk e) (empty : Outcome (SingularTable β))
    (updater : TermKey → Option (Tensor ν NoSymmetry α)) (sites : TermKey → List (LatticeSite M N))
    (op : TermKey → Tensor ν NoSymmetry α) (size steps : ℕ) (hsize : 0 < size) (keys : List TermKey)
    (hn : keys.Nodup) (hr : NoReversed keys)
    (hk : ∀ k ∈ keys, updater k = some (op k) ∧ TermOf k (sites k) ∧ OperatorOn d (sites k).length e.nm (op k))
    {s : NetState ν α β} {h v : ℕ → ℕ → Option ℕ} (hs : NetworkOn e.nm M N d s h v)
    (P : Processes (Outcome (Tensor ν NoSymmetry α)) (Outcome (SingularTable β)))
    (hP : ∀ r < size, P r = okState s) :
    ∃ groups B, updateGroups keys = .ok groups ∧
      ((∃ s' h' v' κ, κ ≠ 0 ∧ NetworkOn e.nm M N d s' h' v' ∧
        (∀ x : SpinConfig M N d, networkAmp e.nm e.c h' v' s' x =
          κ * actTerms e.nm sites op (updateSequence groups steps) (networkAmp e.nm e.c h v s) x) ∧
        ∀ D, Keeps B D → ∃ P', simpleUpdate (netOps e D) empty updater size steps keys P = .ok P' ∧
          ∀ r < size, P' r = okState s') ∨
      ((∃ l k l', updateSequence groups steps = l ++ k :: l' ∧
          ((∃ s' h' v' κ, Reaches e d updater sites op B l s h v s' h' v' κ ∧
            ∃ S ∈ environmentsAround s' (sites k), ¬ NoZero S) ∨
          ∀ x : SpinConfig M N d, actTerms e.nm sites op (l ++ [k]) (networkAmp e.nm e.c h v s) x = 0)) ∧
        ∀ D, Keeps B D → ∃ st P', simpleUpdate (netOps e D) empty updater size steps keys P = .ok P' ∧
          (∀ r < size, P' r = st) ∧ Spoiled st)) := by
  obtain ⟨groups, hg⟩ : ∃ groups, updateGroups keys = .ok groups := by
    exact (C58_groups_supported keys).1.2 fun k hkk => (hk k hkk).2.1.supported
  have hmem : ∀ k ∈ updateSequence groups steps, k ∈ keys := by
    intro k hkk
    have := C59_twice_per_step keys groups hg steps k
    have h0 : 0 < (updateSequence groups steps).count k := List.count_pos_iff.2 hkk
    rw [this] at h0
    exact List.count_pos_iff.1 (Nat.pos_of_mul_pos_left h0)
  have hpar := fun D => C59_parallel_is_sequential (netOps e D) empty updater size steps hsize keys hn hr
    (fun k hkk => by rw [(hk k hkk).1]; rfl) groups hg (okState s) P hP
  obtain ⟨B, hB⟩ := C65_run he updater sites op (updateSequence groups steps) (fun k hkk => hk k (hmem k hkk)) hs
  refine ⟨groups, B, hg, ?_⟩
  rcases hB with ⟨s', h', v', κ, hR⟩ | ⟨l, k, l', s', h', v', κ, e1, hR, hw, hsp⟩
  · refine Or.inl ⟨s', h', v', κ, hR.ne, hR.on, hR.amp, fun D hD => ?_⟩
    obtain ⟨st, P', p1, p2, p3⟩ := hpar D
    rw [hR.run D hD] at p1
    obtain rfl := Outcome.ok.inj p1
    exact ⟨P', p2, p3⟩
  · refine Or.inr ⟨⟨l, k, l', e1, ?_⟩, fun D hD => ?_⟩
    · rcases hw with hw | hw
      · exact Or.inl ⟨s', h', v', κ, hR, hw⟩
      · exact Or.inr hw
    · obtain ⟨st, P', p1, p2, p3⟩ := hpar D
      obtain ⟨st', q1, q2⟩ := hsp D hD
      rw [q1] at p1
      obtain rfl := Outcome.ok.inj p1
      exact ⟨st', P', p2, p3, q2⟩

end TAT
