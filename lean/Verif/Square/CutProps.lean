import Verif.Square.SimpleProps

/-!
# C66: the simple update with a dimension that cuts
-/

namespace TAT

set_option linter.unusedSectionVars false

variable {ν α β : Type} [LinearOrder ν] [Field α] [LinearOrder β] [Field β] [IsStrictOrderedRing β]
  {e : NetEnv ν α β} {M N d : ℕ}

/-- The environment between the two sites. -/
def bondEnv {T E : Type} (s : UpdateState T E) : List (LatticeSite M N) → Option E
  | [x, y] => if x.1.val = y.1.val then s.env false (sitePos x) else s.env true (sitePos x)
  | _ => none

/-- The dimension of the edge between two sites. -/
def edgeDim (h v : ℕ → ℕ → Option ℕ) (x y : LatticeSite M N) : Option ℕ :=
  if x.1.val = y.1.val then h x.1.val y.2.val else v y.1.val x.2.val

theorem setDim_setDim (h : ℕ → ℕ → Option ℕ) (i j K D : ℕ) : setDim (setDim h i j K) i j D = setDim h i j D := by
  funext i' j'
  unfold setDim
  split_ifs <;> rfl

theorem setDim_self {h : ℕ → ℕ → Option ℕ} {i j K : ℕ} (hh : h i j = some K) : setDim h i j K = h := by
  funext i' j'
  unfold setDim
  split_ifs with hc
  · rw [hc.1, hc.2, hh]
  · rfl

theorem afterBond_self {s : NetState ν α β} {b : Bool} {p q : Pos} {S : SingularTable β} (hS : s.env b p = some S) :
    afterBond s b p q (s.site p) S (s.site q) = s := by
  unfold afterBond
  rw [Function.update_eq_self, Function.update_eq_self, ← hS, Function.update_eq_self, Function.update_eq_self]

/-- Zero singular values can be cut. -/
theorem pairForm_zeros (he : NetEnvOk e) {m : ℕ} {a b : NetLabel} {T T' : NetLabel → Option ℕ}
    {t t' : Tensor ν NoSymmetry α} {E : Option (SingularTable β)} {s0 s1 : ℕ} {old : Fin d → Fin d → α}
    {new : ℕ → Tensor ν NoSymmetry α → SingularTable β → Tensor ν NoSymmetry α → α}
    (h : PairForm e d m a b T T' t E t' s0 s1 old new) {K D : ℕ} (hD : D ≤ K) {A B : Tensor ν NoSymmetry α} {l : List β}
    (hA : HasLegs (netName e.nm) A (Function.update T b (some K)))
    (hB : HasLegs (netName e.nm) B (Function.update T' a (some K))) (hl : ∀ k, D ≤ k → l.getD k 0 = 0) :
    new D A [(0, l)] B = new K A [(0, l)] B := by
  obtain ⟨X, I, w, f, f', -, -, h3⟩ := h
  rw [h3 K D A l B hA hB, h3 K K A l B hA hB]
  refine Finset.sum_congr rfl fun y _ => ?_
  congr 1
  refine Finset.sum_subset (fun k hk => ?_) fun k _ hk => ?_
  · rw [Finset.mem_range] at hk ⊢
    omega
  · rw [Finset.mem_range, not_lt] at hk
    rw [hl k hk, (he.c_zero 0).2 rfl, mul_zero, zero_mul]

/-- If the singular values beyond the first `D` vanish, the sum over the first `D` indices of the edge is the
amplitude. -/
theorem bondAmp_zeros (he : NetEnvOk e) {s : NetState ν α β} {h v : ℕ → ℕ → Option ℕ} {K D : ℕ} (hD : D ≤ K)
    {x y : LatticeSite M N} (hxy : NextTo x y)
    (hs : NetworkOn e.nm M N d s (withBond [x, y] K h v).1 (withBond [x, y] K h v).2) {l : List β}
    (hS : bondEnv s [x, y] = some [(0, l)]) (hl : ∀ k, D ≤ k → l.getD k 0 = 0) (z : SpinConfig M N d) :
    bondAmp e [x, y] D h v s z = bondAmp e [x, y] K h v s z := by
  obtain ⟨⟨i, hi⟩, ⟨j, hj⟩⟩ := x
  obtain ⟨⟨i', hi'⟩, ⟨j', hj'⟩⟩ := y
  rcases hxy with ⟨h1, h2⟩ | ⟨h1, h2⟩
  · have h1 : i = i' := h1
    have h2 : j + 1 = j' := h2
    subst h1
    subst h2
    have hw : ∀ K, withBond [((⟨i, hi⟩, ⟨j, hj⟩) : LatticeSite M N), (⟨i, hi'⟩, ⟨j + 1, hj'⟩)] K h v =
        (setDim h i (j + 1) K, v) := fun K => if_pos rfl
    simp only [hw] at hs
    simp only [bondAmp, hw]
    have hS : s.env false ((i : ℤ), (j : ℤ)) = some [(0, l)] := by
      rw [← hS]
      exact (if_pos rfl).symm
    have hp := horizontal_pair he hs hi hj hj' z
    have hK : setDim h i (j + 1) K i (j + 1) = some K := if_pos ⟨rfl, rfl⟩
    have h0 : SiteEdges e.nm (s.site ((i : ℤ), (j : ℤ))) _ _ _ _ d := hs.sites.fits i hi j hj
    have h0' : SiteEdges e.nm (s.site (((i : ℤ), (j : ℤ) + 1) : Pos)) _ _ _ _ d := hs.sites.fits i hi (j + 1) hj'
    have := pairForm_zeros he hp hD ((h0.legs he.inj).change fun g => by cases g <;> simp [netLegs, hK])
      ((h0'.legs he.inj).change fun g => by cases g <;> simp [netLegs, hK]) hl
    beta_reduce at this
    rw [afterBond_self hS, setDim_setDim, setDim_setDim] at this
    exact this
  · have h1 : i + 1 = i' := h1
    have h2 : j = j' := h2
    subst h1
    subst h2
    have hw : ∀ K, withBond [((⟨i, hi⟩, ⟨j, hj⟩) : LatticeSite M N), (⟨i + 1, hi'⟩, ⟨j, hj'⟩)] K h v =
        (h, setDim v (i + 1) j K) := fun K => if_neg (by simp)
    simp only [hw] at hs
    simp only [bondAmp, hw]
    have hS : s.env true ((i : ℤ), (j : ℤ)) = some [(0, l)] := by
      rw [← hS]
      exact (if_neg (by simp)).symm
    have hp := vertical_pair he hs hi hj hi' z
    have hK : setDim v (i + 1) j K (i + 1) j = some K := if_pos ⟨rfl, rfl⟩
    have h0 : SiteEdges e.nm (s.site ((i : ℤ), (j : ℤ))) _ _ _ _ d := hs.sites.fits i hi j hj
    have h0' : SiteEdges e.nm (s.site (((i : ℤ) + 1, (j : ℤ)) : Pos)) _ _ _ _ d := hs.sites.fits (i + 1) hi' j hj
    have := pairForm_zeros he hp hD ((h0.legs he.inj).change fun g => by cases g <;> simp [netLegs, hK])
      ((h0'.legs he.inj).change fun g => by cases g <;> simp [netLegs, hK]) hl
    beta_reduce at this
    rw [afterBond_self hS, setDim_setDim, setDim_setDim] at this
    exact this

/-- **C66.**  A term with a dimension which cuts: there is a lattice `s'`, the one which the update without a cut
gives, whose amplitudes are those of the state multiplied with the operator; with the cut `D` the state is, up to
a factor, that of `s'` with the sum over the edge between the sites restricted to the first `D` indices, and the
edge has this dimension.  The update is spoiled only if this restricted sum vanishes. -/
theorem C66_term (he : NetEnvOk e) {s : NetState ν α β} {h v : ℕ → ℕ → Option ℕ}
    (hs : NetworkOn e.nm M N d s h v) {key : TermKey} {xs : List (LatticeSite M N)} (hx : TermOf key xs)
    {U : Tensor ν NoSymmetry α} (hU : OperatorOn d xs.length e.nm U)
    (hz : ∀ S ∈ environmentsAround s xs, NoZero S)
    (hne : ∃ x : SpinConfig M N d, actOn xs (matrixElement e.nm U) (networkAmp e.nm e.c h v s) x ≠ 0) :
    ∃ K s' κ, κ ≠ 0 ∧
      (∀ D, Keeps K D → updateTerm (netOps e D) U key (okState s) = .ok (okState s')) ∧
      NetworkOn e.nm M N d s' (withBond xs K h v).1 (withBond xs K h v).2 ∧
      (∀ x : SpinConfig M N d, bondAmp e xs K h v s' x =
        κ * actOn xs (matrixElement e.nm U) (networkAmp e.nm e.c h v s) x) ∧
      ∀ D, D ≠ 0 → D < K → D < 2 ^ 64 - 1 →
        (∃ s'' κ', κ' ≠ 0 ∧ updateTerm (netOps e D) U key (okState s) = .ok (okState s'') ∧
          NetworkOn e.nm M N d s'' (withBond xs D h v).1 (withBond xs D h v).2 ∧
          ∀ x : SpinConfig M N d, bondAmp e xs D h v s'' x = κ' * bondAmp e xs D h v s' x) ∨
        ((∃ st, updateTerm (netOps e D) U key (okState s) = .ok st ∧ Spoiled st) ∧
          ∀ x : SpinConfig M N d, bondAmp e xs D h v s' x = 0) := by
  obtain ⟨K, -, k2⟩ := term_step he hs hx hU
  rcases k2 hz with ⟨s', κ, q1, q2, q3, q4, q5⟩ | ⟨-, q⟩
  · exact ⟨K, s', κ, q1, q2, q3, q4, fun D h0 h1 h2 => q5 D ⟨h0, h2.ne, h1⟩⟩
  · obtain ⟨x, hx⟩ := hne
    exact absurd (q x) hx

/-- **C66.**  Nothing is lost if only zeros are cut: then the state is multiplied with the operator and a factor
as without a cut. -/
theorem C66_lossless (he : NetEnvOk e) {s : NetState ν α β} {h v : ℕ → ℕ → Option ℕ}
    (hs : NetworkOn e.nm M N d s h v) {key : TermKey} {xs : List (LatticeSite M N)} (hx : TermOf key xs)
    {U : Tensor ν NoSymmetry α} (hU : OperatorOn d xs.length e.nm U)
    (hz : ∀ S ∈ environmentsAround s xs, NoZero S)
    (hne : ∃ x : SpinConfig M N d, actOn xs (matrixElement e.nm U) (networkAmp e.nm e.c h v s) x ≠ 0) :
    ∃ K s', (∀ D, Keeps K D → updateTerm (netOps e D) U key (okState s) = .ok (okState s')) ∧
      ∀ D, D ≠ 0 → D < K → D < 2 ^ 64 - 1 → ∀ l, bondEnv s' xs = some [(0, l)] → (∀ k, D ≤ k → l.getD k 0 = 0) →
        ∃ s'' κ, κ ≠ 0 ∧ updateTerm (netOps e D) U key (okState s) = .ok (okState s'') ∧
          NetworkOn e.nm M N d s'' (withBond xs D h v).1 (withBond xs D h v).2 ∧
          ∀ x : SpinConfig M N d, bondAmp e xs D h v s'' x =
            κ * actOn xs (matrixElement e.nm U) (networkAmp e.nm e.c h v s) x := by
  obtain ⟨K, s', κ, q1, q2, q3, q4, q5⟩ := C66_term he hs hx hU hz hne
  refine ⟨K, s', q2, fun D h0 h1 h2 l hl hl0 => ?_⟩
  have hb : ∀ z : SpinConfig M N d, bondAmp e xs D h v s' z = bondAmp e xs K h v s' z := by
    rcases hx with ⟨x, rfl, -⟩ | ⟨x, y, hxy, rfl, -⟩
    · exact fun z => rfl
    · exact bondAmp_zeros he h1.le hxy q3 hl hl0
  rcases q5 D h0 h1 h2 with ⟨s'', κ', c1, c2, c3, c4⟩ | ⟨-, c2⟩
  · exact ⟨s'', κ' * κ, mul_ne_zero c1 q1, c2, c3, fun x => by rw [c4, hb, q4, mul_assoc]⟩
  · obtain ⟨x, hx⟩ := hne
    have := c2 x
    rw [hb, q4] at this
    exact absurd ((mul_eq_zero.1 this).resolve_left q1) hx

/-- Dimensions reached from others with the dimension `D`: those that changed are at most `D`. -/
def DimsFrom (D : ℕ) (h v h' v' : ℕ → ℕ → Option ℕ) : Prop :=
  ∀ i j, (h' i j = h i j ∨ ∃ n ≤ D, h' i j = some n) ∧ (v' i j = v i j ∨ ∃ n ≤ D, v' i j = some n)

theorem DimsFrom.trans {D : ℕ} {h v h1 v1 h2 v2 : ℕ → ℕ → Option ℕ} (a : DimsFrom D h v h1 v1)
    (b : DimsFrom D h1 v1 h2 v2) : DimsFrom D h v h2 v2 := by
  intro i j
  constructor
  · rcases (b i j).1 with h | h
    · rw [h]; exact (a i j).1
    · exact Or.inr h
  · rcases (b i j).2 with h | h
    · rw [h]; exact (a i j).2
    · exact Or.inr h

theorem dimsFrom_withBond (xs : List (LatticeSite M N)) {K D : ℕ} (hK : K ≤ D) (h v : ℕ → ℕ → Option ℕ) :
    DimsFrom D h v (withBond xs K h v).1 (withBond xs K h v).2 := by
  have same : DimsFrom D h v h v := fun i j => ⟨Or.inl rfl, Or.inl rfl⟩
  unfold withBond
  split
  · split
    · refine fun i j => ⟨?_, Or.inl rfl⟩
      show setDim h _ _ K i j = h i j ∨ ∃ n ≤ D, setDim h _ _ K i j = some n
      unfold setDim
      split
      · exact Or.inr ⟨K, hK, rfl⟩
      · exact Or.inl rfl
    · refine fun i j => ⟨Or.inl rfl, ?_⟩
      show setDim v _ _ K i j = v i j ∨ ∃ n ≤ D, setDim v _ _ K i j = some n
      unfold setDim
      split
      · exact Or.inr ⟨K, hK, rfl⟩
      · exact Or.inl rfl
  · exact same

theorem edgeDim_withBond (x y : LatticeSite M N) (K : ℕ) (h v : ℕ → ℕ → Option ℕ) :
    edgeDim (withBond [x, y] K h v).1 (withBond [x, y] K h v).2 x y = some K := by
  unfold edgeDim
  by_cases hc : x.1.val = y.1.val
  · simp [withBond, hc, setDim]
  · simp [withBond, hc, setDim]

theorem DimsFrom.bond {D : ℕ} {h v h' v' : ℕ → ℕ → Option ℕ} (a : DimsFrom D h v h' v') {x y : LatticeSite M N}
    (hb : ∃ n ≤ D, edgeDim h v x y = some n) : ∃ n ≤ D, edgeDim h' v' x y = some n := by
  unfold edgeDim at hb ⊢
  split_ifs at hb ⊢
  · rcases (a x.1.val y.2.val).1 with h | h
    · rw [h]; exact hb
    · exact h
  · rcases (a y.1.val x.2.val).2 with h | h
    · rw [h]; exact hb
    · exact h

/-- **C66.**  One term after the other, with any dimension: the run ends with a lattice in which the edge of every
term that was applied has a dimension not above the given one and no other edge has changed its dimension, or it
is spoiled. -/
theorem C66_run (he : NetEnvOk e) {D : ℕ} (hD : D ≠ 0) (hD' : D < 2 ^ 64 - 1)
    (updater : TermKey → Option (Tensor ν NoSymmetry α))
    (sites : TermKey → List (LatticeSite M N)) (op : TermKey → Tensor ν NoSymmetry α) (keys : List TermKey)
    (hk : ∀ k ∈ keys, updater k = some (op k) ∧ TermOf k (sites k) ∧ OperatorOn d (sites k).length e.nm (op k))
    {s : NetState ν α β} {h v : ℕ → ℕ → Option ℕ} (hs : NetworkOn e.nm M N d s h v) :
    (∃ s' h' v', sequentialUpdate (netOps e D) updater keys (okState s) = .ok (okState s') ∧
      NetworkOn e.nm M N d s' h' v' ∧ DimsFrom D h v h' v' ∧
      ∀ k ∈ keys, ∀ x y, sites k = [x, y] → ∃ n ≤ D, edgeDim h' v' x y = some n) ∨
    ∃ st, sequentialUpdate (netOps e D) updater keys (okState s) = .ok st ∧ Spoiled st := by
  induction keys generalizing s h v with
  | nil => exact Or.inl ⟨s, h, v, rfl, hs, fun i j => ⟨Or.inl rfl, Or.inl rfl⟩, by simp⟩
  | cons k l ih =>
    obtain ⟨u1, u2, u3⟩ := hk k (by simp)
    have hl : ∀ k ∈ l, updater k = some (op k) ∧ TermOf k (sites k) ∧ OperatorOn d (sites k).length e.nm (op k) :=
      fun k hk' => hk k (by simp [hk'])
    have step : ∀ st, updateTerm (netOps e D) (op k) k (okState s) = .ok st →
        sequentialUpdate (netOps e D) updater (k :: l) (okState s) = sequentialUpdate (netOps e D) updater l st := by
      intro st hst
      rw [sequentialUpdate, u1]
      simp only []
      rw [hst]
      rfl
    have spoil : (∃ st, updateTerm (netOps e D) (op k) k (okState s) = .ok st ∧ Spoiled st) →
        ∃ st, sequentialUpdate (netOps e D) updater (k :: l) (okState s) = .ok st ∧ Spoiled st := by
      rintro ⟨st, h1, h2⟩
      rw [step st h1]
      exact h2.run D fun k hk => ⟨op k, (hl k hk).2.1.bond.choose, (hl k hk).1, (hl k hk).2.1.bond.choose_spec⟩
    have go : ∀ s1 K, K ≤ D → updateTerm (netOps e D) (op k) k (okState s) = .ok (okState s1) →
        NetworkOn e.nm M N d s1 (withBond (sites k) K h v).1 (withBond (sites k) K h v).2 →
        (∃ s' h' v', sequentialUpdate (netOps e D) updater (k :: l) (okState s) = .ok (okState s') ∧
          NetworkOn e.nm M N d s' h' v' ∧ DimsFrom D h v h' v' ∧
          ∀ k' ∈ k :: l, ∀ x y, sites k' = [x, y] → ∃ n ≤ D, edgeDim h' v' x y = some n) ∨
        ∃ st, sequentialUpdate (netOps e D) updater (k :: l) (okState s) = .ok st ∧ Spoiled st := by
      intro s1 K hK h1 h2
      rw [step _ h1]
      rcases ih hl h2 with ⟨s', h', v', a1, a2, a3, a4⟩ | a
      · refine Or.inl ⟨s', h', v', a1, a2, (dimsFrom_withBond (sites k) hK h v).trans a3, fun k' hk' x y hxy => ?_⟩
        rcases List.mem_cons.1 hk' with rfl | hk'
        · refine a3.bond ⟨K, hK, ?_⟩
          rw [hxy]
          exact edgeDim_withBond x y K h v
        · exact a4 k' hk' x y hxy
      · exact Or.inr a
    obtain ⟨K, k1, k2⟩ := term_step he hs u2 u3
    by_cases hz : ∀ S ∈ environmentsAround s (sites k), NoZero S
    · rcases k2 hz with ⟨s1, κ, q1, q2, q3, q4, q5⟩ | ⟨q1, q2⟩
      · rcases keeps_or_cuts K hD with hK | hK
        · refine go s1 K ?_ (q2 D hK) q3
          rcases hK with hK | hK
          · exact hK
          · exact absurd hK hD'.ne
        · rcases q5 D hK with ⟨s2, κ', c1, c2, c3, c4⟩ | ⟨c1, c2⟩
          · exact go s2 D le_rfl c2 c3
          · exact Or.inr (spoil c1)
      · exact Or.inr (spoil (q1 D (keeps_or_cuts K hD)))
    · push Not at hz
      exact Or.inr (spoil (k1 hz D (keeps_or_cuts K hD)))

/-- **C66.**  `update` on any number of processes with any dimension: all of them end with the same lattice, in
which the edge of every term has a dimension not above the given one and no other edge has changed; or all of them
end with the same spoiled lattice. -/
theorem C66_parallel (he : NetEnvOk e) {D : ℕ} (hD : D ≠ 0) (hD' : D < 2 ^ 64 - 1)
    (empty : Outcome (SingularTable β))
    (updater : TermKey → Option (Tensor ν NoSymmetry α)) (sites : TermKey → List (LatticeSite M N))
    (op : TermKey → Tensor ν NoSymmetry α) (size steps : ℕ) (hsize : 0 < size) (hsteps : 0 < steps)
    (keys : List TermKey) (hn : keys.Nodup) (hr : NoReversed keys)
    (hk : ∀ k ∈ keys, updater k = some (op k) ∧ TermOf k (sites k) ∧ OperatorOn d (sites k).length e.nm (op k))
    {s : NetState ν α β} {h v : ℕ → ℕ → Option ℕ} (hs : NetworkOn e.nm M N d s h v)
    (P : Processes (Outcome (Tensor ν NoSymmetry α)) (Outcome (SingularTable β)))
    (hP : ∀ r < size, P r = okState s) :
    ∃ st P', simpleUpdate (netOps e D) empty updater size steps keys P = .ok P' ∧ (∀ r < size, P' r = st) ∧
      (Spoiled st ∨ ∃ s' h' v', st = okState s' ∧ NetworkOn e.nm M N d s' h' v' ∧ DimsFrom D h v h' v' ∧
        ∀ k ∈ keys, ∀ x y, sites k = [x, y] → ∃ n ≤ D, edgeDim h' v' x y = some n) := by
  obtain ⟨groups, hg⟩ : ∃ groups, updateGroups keys = .ok groups :=
    (C58_groups_supported keys).1.2 fun k hkk => (hk k hkk).2.1.supported
  have hcount := C59_twice_per_step keys groups hg steps
  have hmem : ∀ k ∈ updateSequence groups steps, k ∈ keys := by
    intro k hkk
    have h0 : 0 < (updateSequence groups steps).count k := List.count_pos_iff.2 hkk
    rw [hcount] at h0
    exact List.count_pos_iff.1 (Nat.pos_of_mul_pos_left h0)
  have hmem' : ∀ k ∈ keys, k ∈ updateSequence groups steps := by
    intro k hkk
    rw [← List.count_pos_iff, hcount]
    exact Nat.mul_pos (by omega) (List.count_pos_iff.2 hkk)
  obtain ⟨st, P', p1, p2, p3⟩ := C59_parallel_is_sequential (netOps e D) empty updater size steps hsize keys hn hr
    (fun k hkk => by rw [(hk k hkk).1]; rfl) groups hg (okState s) P hP
  refine ⟨st, P', p2, p3, ?_⟩
  rcases C66_run he hD hD' updater sites op (updateSequence groups steps) (fun k hkk => hk k (hmem k hkk)) hs with
    ⟨s', h', v', a1, a2, a3, a4⟩ | ⟨st', a1, a2⟩
  · rw [a1] at p1
    exact Or.inr ⟨s', h', v', (Outcome.ok.inj p1).symm, a2, a3, fun k hkk => a4 k (hmem' k hkk)⟩
  · rw [a1] at p1
    exact Or.inl (Outcome.ok.inj p1 ▸ a2)

end TAT
