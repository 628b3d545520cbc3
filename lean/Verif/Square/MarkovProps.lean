import Verif.Square.MarkovLemmas
import Verif.Square.ErgodicProps

/-!
# C57: the Markov chain of `markov` and `equilibrate`
-/

namespace TAT

variable {K : Type}

/-- **C57.**  Real scalars. -/
theorem C57_real_laws : NormLaws (K := ℝ) ⟨id, fun x => x * x⟩ where
  normSq_div a b := div_mul_div_comm a b a b
  normSq_nonneg a := mul_self_nonneg a
  normSq_eq_zero _ := mul_self_eq_zero

/-- **C57.**  Complex scalars. -/
theorem C57_complex_laws : NormLaws (K := ℂ) ⟨Complex.re, fun z => Complex.normSq z⟩ where
  normSq_div := map_div₀ Complex.normSq
  normSq_nonneg := Complex.normSq_nonneg
  normSq_eq_zero _ := Complex.normSq_eq_zero

section

variable [Field K] [DecidableEq K]

/-- An operator on the spins at some sites, with its table of hoppings: positions in the lattice, all
different, and an element is zero if and only if the transposed one is. -/
structure HoppingTerm (M N d : ℕ) (value : List ℕ → K) (t : ElementTable K) (ps : List (ℤ × ℤ))
    (xs : List (LatticeSite M N)) : Prop where
  table : findHopping d ps.length value = .ok t
  sites : sitesAt M N ps = .ok xs
  nodup : xs.Nodup
  symm : ∀ a b, Spins d ps.length a → Spins d ps.length b → value (a ++ b) ≠ 0 → value (b ++ a) ≠ 0

theorem HoppingTerm.spec {M N d : ℕ} (hd : 0 < d) {value : List ℕ → K} {t : ElementTable K}
    {ps : List (ℤ × ℤ)} {xs : List (LatticeSite M N)} (h : HoppingTerm M N d value t ps xs) :
    HoppingTable d ps.length value t ∧
    ∀ a b, Element d ps.length value a b → Element d ps.length value b a := by
  have hb : 0 < ps.length := by
    rcases Nat.eq_zero_or_pos ps.length with e | e
    · have := h.table
      rw [e, (C55_no_sites d value).2] at this
      cases this
    · exact e
  obtain ⟨t', ht', htab⟩ := findHopping_spec hd hb value
  obtain rfl := Outcome.ok.inj (h.table.symm.trans ht')
  exact ⟨htab, fun a b e => ⟨e.2.1, e.1, h.symm a b e.1 e.2.1 e.2.2⟩⟩

/-- **C57.**  The amplitude which is carried along stays the amplitude of the configuration, through any
number of terms. -/
theorem C57_amplitude {R : Type} [Field R] [LinearOrder R] (ops : ScalarOps K R) {M N d : ℕ}
    (w : SpinConfig M N d → K) (terms : List (ElementTable K × List (ℤ × ℤ))) (random : ℕ → ℕ × R)
    (c : SpinConfig M N d)
    (s : SpinConfig M N d × K) (h : markovSweep ops w terms (c, w c) random = .ok s) :
    s.2 = w s.1 := by
  have one : ∀ (t : ElementTable K) (ps : List (ℤ × ℤ)) (s s' : SpinConfig M N d × K) (r : ℕ) (u : R),
      s.2 = w s.1 → markovTerm ops w t ps s r u = .ok s' → s'.2 = w s'.1 := by
    rintro t ps ⟨c, ws⟩ s' r u hs h
    change ws = w c at hs
    subst hs
    obtain ⟨xs, -, h⟩ := bind_ok h
    obtain ⟨row, -, h⟩ := bind_ok h
    split at h
    · rw [← Outcome.ok.inj h]
    · split at h
      · cases h
      · obtain ⟨c', -, h⟩ := bind_ok h
        obtain ⟨wss, h2, h⟩ := bind_ok h
        obtain ⟨row', -, h⟩ := bind_ok h
        obtain ⟨q, -, h⟩ := bind_ok h
        change replacedAmplitude w c (w c) c' = _ at h2
        rw [replacedAmplitude_eq] at h2
        split at h2
        · have e := Outcome.ok.inj h2
          split at h
          · rw [← Outcome.ok.inj h]
            exact e.symm
          · rw [← Outcome.ok.inj h]
        · cases h2
  have key : ∀ (l : List ((ElementTable K × List (ℤ × ℤ)) × ℕ)) (s s' : SpinConfig M N d × K),
      s.2 = w s.1 →
      l.foldlM (fun s t => markovTerm ops w t.1.1 t.1.2 s (random t.2).1 (random t.2).2) s = .ok s' →
      s'.2 = w s'.1 := by
    intro l
    induction l with
    | nil =>
      intro s s' hs h
      rw [← Outcome.ok.inj h]
      exact hs
    | cons e l ih =>
      intro s s' hs h
      rw [List.foldlM_cons] at h
      obtain ⟨s1, h1, h2⟩ := bind_ok h
      exact ih s1 s' (one _ _ _ _ _ _ hs h1) h2
  exact key _ _ _ rfl h

/-- **C57.**  Detailed balance of each term with respect to the squares of the amplitudes. -/
theorem C57_detailed_balance {ops : ScalarOps K ℝ} (laws : NormLaws ops) {M N d : ℕ} (hd : 0 < d)
    (w : SpinConfig M N d → K) {value : List ℕ → K} {t : ElementTable K} {ps : List (ℤ × ℤ)}
    {xs : List (LatticeSite M N)} (h : HoppingTerm M N d value t ps xs) (c c' : SpinConfig M N d) :
    ops.normSq (w c) * markovProb ops w t ps c c' = ops.normSq (w c') * markovProb ops w t ps c' c := by
  classical
  obtain ⟨ht, sym⟩ := h.spec hd
  by_cases hc : c = c'
  · rw [hc]
  have pos : ∀ c, w c ≠ 0 → 0 < ops.normSq (w c) := fun c hw =>
    lt_of_le_of_ne (laws.normSq_nonneg _) fun e => hw ((laws.normSq_eq_zero _).1 e.symm)
  have rowpos : ∀ a b, Element d ps.length value a b → a ≠ b → 0 < rowLength t a := by
    intro a b hab hne
    obtain ⟨row, hrow⟩ := Option.ne_none_iff_exists'.1 (ht.2.2 _ _ hab)
    rw [rowLength, hrow]
    exact List.length_pos_of_mem ((hopping_mem ht hrow (b, value (a ++ b))).2 ⟨⟨hab, hne⟩, rfl⟩)
  rw [markovProb_off laws w ht sym h.sites rfl h.nodup c c' hc,
    markovProb_off laws w ht sym h.sites rfl h.nodup c' c (Ne.symm hc)]
  by_cases hg : Agrees xs c c' ∧ Element d ps.length value (spinsAt c xs) (spinsAt c' xs) ∧
      replaceable (diffSites c c') = true
  · obtain ⟨h1, h2, h3⟩ := hg
    have g1 : Agrees xs c' c := fun x hx => (h1 x hx).symm
    have g2 := sym _ _ h2
    have g3 : replaceable (diffSites c' c) = true := by rwa [diffSites_symm]
    have hne : spinsAt c xs ≠ spinsAt c' xs := fun e => hc (agrees_ext (fun _ _ => rfl) h1 e)
    have n1 : (0 : ℝ) < rowLength t (spinsAt c xs) := by exact_mod_cast rowpos _ _ h2 hne
    have n2 : (0 : ℝ) < rowLength t (spinsAt c' xs) := by exact_mod_cast rowpos _ _ g2 hne.symm
    by_cases w1 : w c = 0
    · rw [(laws.normSq_eq_zero _).2 w1, zero_mul]
      by_cases w2 : w c' = 0
      · rw [(laws.normSq_eq_zero _).2 w2, zero_mul]
      · rw [if_pos ⟨g1, g2, g3, w2⟩, laws.normSq_div, (laws.normSq_eq_zero _).2 w1]
        simp
    · by_cases w2 : w c' = 0
      · rw [(laws.normSq_eq_zero _).2 w2, zero_mul, if_pos ⟨h1, h2, h3, w1⟩, laws.normSq_div,
          (laws.normSq_eq_zero _).2 w2]
        simp
      · have p1 := pos c w1
        have p2 := pos c' w2
        rw [if_pos ⟨h1, h2, h3, w1⟩, if_pos ⟨g1, g2, g3, w2⟩, laws.normSq_div, laws.normSq_div]
        have flow : ∀ {x y m n : ℝ}, 0 < x → 0 < y → 0 < m → 0 < n →
            x * (min (y / x * m / n) 1 / m) = min (y / n) (x / m) := by
          intro x y m n hx hy hm hn
          rw [← mul_div_assoc, mul_min_of_nonneg _ _ hx.le, ← min_div_div_right hm.le]
          congr 1
          · field_simp
          · rw [mul_one]
        rw [flow p1 p2 n1 n2, flow p2 p1 n2 n1, min_comm]
  · rw [if_neg fun x => hg ⟨x.1, x.2.1, x.2.2.1⟩, if_neg, mul_zero, mul_zero]
    rintro ⟨h1, h2, h3, -⟩
    exact hg ⟨fun x hx => (h1 x hx).symm, sym _ _ h2, by rwa [diffSites_symm]⟩

/-- **C57.**  From a configuration with an amplitude which is not zero the probabilities add up to one,
for one site or two neighbours, if the row of the spins is not zero: the term always returns. -/
theorem C57_stochastic (ops : ScalarOps K ℝ) {M N d : ℕ} (hd : 0 < d)
    (w : SpinConfig M N d → K) {value : List ℕ → K} {t : ElementTable K} {ps : List (ℤ × ℤ)}
    {xs : List (LatticeSite M N)} (h : HoppingTerm M N d value t ps xs) (hs : Supported xs)
    (c : SpinConfig M N d) (hw : w c ≠ 0)
    (hr : ∃ b, Spins d ps.length b ∧ value ((xs.map fun x => (c x).val) ++ b) ≠ 0) :
    ∑ c', markovProb ops w t ps c c' = 1 := by
  obtain ⟨ht, sym⟩ := h.spec hd
  have hlen := sitesAt_length h.sites
  obtain ⟨b, hb1, hb2⟩ := hr
  obtain ⟨row, hrow⟩ := Option.ne_none_iff_exists'.1
    (ht.2.2 (spinsAt c xs) b ⟨hlen ▸ spinsAt_spins c xs, hb1, hb2⟩)
  have hcount : indexCount t ps c = max 1 row.length := by
    rw [indexCount, h.sites]
    show max 1 (rowLength t (spinsAt c xs)) = _
    rw [rowLength, hrow]
    rfl
  refine markovProb_sum_of_ok w t ps c (by rw [hcount]; omega) fun r hr => ?_
  rw [hcount] at hr
  by_cases hne : row = []
  · subst hne
    refine ⟨c, 0, fun u => ?_⟩
    rw [markovTerm_empty w h.sites c hrow]
    split <;> rfl
  · have hpos : 0 < row.length := List.length_pos_iff.2 hne
    have hr' : r < row.length := by omega
    obtain ⟨c', e1, e2, -, -⟩ := markovTerm_eq (ops := ops) w ht sym h.sites rfl h.nodup c hrow r hr' 0
    refine ⟨c', ops.normSq (w c' / w c) * row.length / rowLength t (spinsAt c' xs), fun u => ?_⟩
    obtain ⟨c'', e1', e2', -, e4⟩ :=
      markovTerm_eq (ops := ops) w ht sym h.sites rfl h.nodup c hrow r hr' u
    obtain rfl : c'' = c' := agrees_ext e1' e1 (e2'.trans e2.symm)
    rw [e4, if_pos (hs.replaceable e1), if_neg hw]

/-- **C57.**  The squares of the amplitudes are stationary under each term. -/
theorem C57_stationary {ops : ScalarOps K ℝ} (laws : NormLaws ops) {M N d : ℕ} (hd : 0 < d)
    (w : SpinConfig M N d → K) {value : List ℕ → K} {t : ElementTable K} {ps : List (ℤ × ℤ)}
    {xs : List (LatticeSite M N)} (h : HoppingTerm M N d value t ps xs) (hs : Supported xs)
    (hr : ∀ a, Spins d ps.length a → ∃ b, Spins d ps.length b ∧ value (a ++ b) ≠ 0)
    (c' : SpinConfig M N d) :
    ∑ c, ops.normSq (w c) * markovProb ops w t ps c c' = ops.normSq (w c') := by
  rw [Finset.sum_congr rfl fun c _ => C57_detailed_balance laws hd w h c c', ← Finset.mul_sum]
  by_cases hw : w c' = 0
  · rw [(laws.normSq_eq_zero _).2 hw, zero_mul]
  · rw [C57_stochastic ops hd w h hs c' hw (hr _ (sitesAt_length h.sites ▸ spinsAt_spins c' xs)), mul_one]

/-- **C57.**  A configuration with amplitude zero is never reached from one whose amplitude is not. -/
theorem C57_never_zero {ops : ScalarOps K ℝ} (laws : NormLaws ops) {M N d : ℕ} (hd : 0 < d)
    (w : SpinConfig M N d → K) {value : List ℕ → K} {t : ElementTable K} {ps : List (ℤ × ℤ)}
    {xs : List (LatticeSite M N)} (h : HoppingTerm M N d value t ps xs) (c c' : SpinConfig M N d)
    (hc : w c ≠ 0) (hc' : w c' = 0) : markovProb ops w t ps c c' = 0 := by
  have := C57_detailed_balance laws hd w h c c'
  rw [(laws.normSq_eq_zero _).2 hc', zero_mul] at this
  rcases mul_eq_zero.1 this with e | e
  · exact absurd ((laws.normSq_eq_zero _).1 e) hc
  · exact e

/-- The probability that a sequence of terms, each with random numbers of its own, leads from one
configuration to another. -/
noncomputable def chainProb (ops : ScalarOps K ℝ) {M N d : ℕ} (w : SpinConfig M N d → K) :
    List (ElementTable K × List (ℤ × ℤ)) → SpinConfig M N d → SpinConfig M N d → ℝ
  | [], c, c' => if c = c' then 1 else 0
  | e :: l, c, c' => ∑ c1, markovProb ops w e.1 e.2 c c1 * chainProb ops w l c1 c'

theorem chainProb_append (ops : ScalarOps K ℝ) {M N d : ℕ} (w : SpinConfig M N d → K)
    (l l' : List (ElementTable K × List (ℤ × ℤ))) (c c' : SpinConfig M N d) :
    chainProb ops w (l ++ l') c c' = ∑ c1, chainProb ops w l c c1 * chainProb ops w l' c1 c' := by
  induction l generalizing c with
  | nil => simp [chainProb]
  | cons e l ih =>
    rw [List.cons_append, chainProb]
    simp only [ih, chainProb, Finset.sum_mul, Finset.mul_sum]
    rw [Finset.sum_comm]
    simp only [mul_assoc]

/-- **C57.**  A chain of terms in one order is balanced by the chain in the opposite order. -/
theorem C57_chain_reversed {ops : ScalarOps K ℝ} (laws : NormLaws ops) {M N d : ℕ} (hd : 0 < d)
    (w : SpinConfig M N d → K) (l : List (ElementTable K × List (ℤ × ℤ)))
    (hl : ∀ e ∈ l, ∃ value xs, HoppingTerm M N d value e.1 e.2 xs) (c c' : SpinConfig M N d) :
    ops.normSq (w c) * chainProb ops w l c c' = ops.normSq (w c') * chainProb ops w l.reverse c' c := by
  induction l generalizing c c' with
  | nil =>
    by_cases e : c = c'
    · rw [e]; rfl
    · simp [chainProb, e, Ne.symm e]
  | cons e l ih =>
    obtain ⟨value, xs, h⟩ := hl e (by simp)
    rw [List.reverse_cons, chainProb_append, chainProb, Finset.mul_sum, Finset.mul_sum]
    refine Finset.sum_congr rfl fun c1 _ => ?_
    have ih' := ih (fun e' he' => hl e' (by simp [he'])) c1 c'
    have hone : chainProb ops w [e] c1 c = markovProb ops w e.1 e.2 c1 c := by
      simp [chainProb]
    rw [hone, ← mul_assoc, C57_detailed_balance laws hd w h c c1, ← mul_assoc, ← ih']
    ring

/-- **C57.**  A sweep, forwards and then backwards, is reversible: detailed balance holds for it as well. -/
theorem C57_sweep_reversible {ops : ScalarOps K ℝ} (laws : NormLaws ops) {M N d : ℕ} (hd : 0 < d)
    (w : SpinConfig M N d → K) (l : List (ElementTable K × List (ℤ × ℤ)))
    (hl : ∀ e ∈ l, ∃ value xs, HoppingTerm M N d value e.1 e.2 xs) (c c' : SpinConfig M N d) :
    ops.normSq (w c) * chainProb ops w (l ++ l.reverse) c c' =
      ops.normSq (w c') * chainProb ops w (l ++ l.reverse) c' c := by
  have := C57_chain_reversed laws hd w (l ++ l.reverse) (by
    intro e he
    rw [List.mem_append, List.mem_reverse, or_self] at he
    exact hl e he) c c'
  rwa [List.reverse_append, List.reverse_reverse] at this

/-- **C57.**  The squares of the amplitudes are stationary under any sequence of terms. -/
theorem C57_chain_stationary {ops : ScalarOps K ℝ} (laws : NormLaws ops) {M N d : ℕ} (hd : 0 < d)
    (w : SpinConfig M N d → K) (l : List (ElementTable K × List (ℤ × ℤ)))
    (hl : ∀ e ∈ l, ∃ value xs, HoppingTerm M N d value e.1 e.2 xs ∧ Supported xs ∧
      ∀ a, Spins d e.2.length a → ∃ b, Spins d e.2.length b ∧ value (a ++ b) ≠ 0)
    (c' : SpinConfig M N d) :
    ∑ c, ops.normSq (w c) * chainProb ops w l c c' = ops.normSq (w c') := by
  induction l with
  | nil => simp [chainProb]
  | cons e l ih =>
    obtain ⟨value, xs, h, hs, hr⟩ := hl e (by simp)
    simp only [chainProb, Finset.mul_sum]
    rw [Finset.sum_comm]
    rw [← ih fun e' he' => hl e' (by simp [he'])]
    refine Finset.sum_congr rfl fun c1 _ => ?_
    rw [← C57_stationary laws hd w h hs hr c1, Finset.sum_mul]
    simp only [mul_assoc]

open scoped Classical in
/-- **C57.**  The mean of the observed values over the stationary distribution is the expectation value. -/
theorem C57_estimator {ops : ScalarOps K ℝ} {conj : K → K} (laws : ScalarLaws ops conj) {M N d : ℕ}
    (hd : 0 < d) (w : SpinConfig M N d → K) (value : List ℕ → K) (ps : List (ℤ × ℤ))
    (t : ElementTable K) (ht : findElement d ps.length value = .ok t)
    (xs : List (LatticeSite M N)) (hx : sitesAt M N ps = .ok xs) (hn : xs.Nodup)
    (v : SpinConfig M N d → ℝ) (h : ∀ c, observeTerm ops w c (w c) t ps = .ok (v c)) :
    ∑ c, ops.normSq (w c) * v c = ∑ c : SpinConfig M N d, ∑ c' : SpinConfig M N d,
      if ∀ x, x ∉ xs → c x = c' x then
        ops.re (conj (w c) * value ((xs.map fun x => (c x).val) ++ xs.map fun x => (c' x).val) * w c')
      else 0 := by
  have hb : 0 < ps.length := by
    rcases Nat.eq_zero_or_pos ps.length with e | e
    · rw [e, (C55_no_sites d value).1] at ht
      cases ht
    · exact e
  obtain ⟨t', ht', htab⟩ := findElement_spec hd hb value
  obtain rfl := Outcome.ok.inj (ht.symm.trans ht')
  refine Finset.sum_congr rfl fun c _ => ?_
  rw [mul_comm, (observeTerm_spec laws w c htab hx rfl hn (h c)).2, localSum]
  refine Finset.sum_congr rfl fun c' _ => ?_
  by_cases ha : ∀ x, x ∉ xs → c x = c' x
  · rw [if_pos ha, if_pos (show Agrees xs c c' from ha), spinsAt, spinsAt]
  · rw [if_neg ha, if_neg (show ¬ Agrees xs c c' from ha)]

end

/-! The exchange of the spins of two neighbours meets the hypotheses: -/

/-- The exchange of two spins, over any field. -/
def exchangeValueOf (K : Type) [Field K] : List ℕ → K
  | [a, b, c, d] => if a = d ∧ b = c then 1 else 0
  | _ => 0

theorem exchange_term : ∃ t : ElementTable ℚ, HoppingTerm 1 2 2 (exchangeValueOf ℚ) t [(0, 0), (0, 1)]
    [(0, 0), (0, 1)] := by
  refine ⟨[([0, 0], []), ([0, 1], [([1, 0], 1)]), ([1, 0], [([0, 1], 1)]), ([1, 1], [])],
    by decide +kernel, by decide +kernel, by decide, ?_⟩
  rintro a b ⟨ha, -⟩ ⟨hb, -⟩ h
  obtain ⟨a1, a2, rfl⟩ := List.length_eq_two.1 ha
  obtain ⟨b1, b2, rfl⟩ := List.length_eq_two.1 hb
  have : a1 = b2 ∧ a2 = b1 := by
    by_contra hn
    exact h (if_neg hn)
  show (if b1 = a2 ∧ b2 = a1 then (1 : ℚ) else 0) ≠ 0
  rw [if_pos ⟨this.2.symm, this.1.symm⟩]
  exact one_ne_zero

theorem exchange_rows (a : List ℕ) (h : Spins 2 2 a) : ∃ b, Spins 2 2 b ∧ exchangeValueOf ℚ (a ++ b) ≠ 0 := by
  obtain ⟨x, y, rfl⟩ := List.length_eq_two.1 h.1
  refine ⟨[y, x], ⟨rfl, ?_⟩, ?_⟩
  · intro s hs
    exact h.2 s (by simpa [or_comm] using hs)
  · show (if x = x ∧ y = y then (1 : ℚ) else 0) ≠ 0
    simp

/-- One term of the exchange on the sample amplitudes; the spins and the amplitude after it. -/
def exchangeStep (c : SpinConfig 1 2 2) (u : ℚ) : Outcome (List (Fin 2) × ℚ) :=
  (markovTerm ratOps sampleAmplitude
    [([0, 0], []), ([0, 1], [([1, 0], 1)]), ([1, 0], [([0, 1], 1)]), ([1, 1], [])] [(0, 0), (0, 1)]
    (c, sampleAmplitude c) 0 u).bind fun s => .ok ((latticeSites 1 2).map s.1, s.2)

/-- From spins 0, 1 (amplitude 3) to 1, 0 (amplitude 4) always, backwards with probability 9/16. -/
example : exchangeStep (fun x => if x = (0, 1) then 1 else 0) (99 / 100) = .ok ([1, 0], 4) := by
  decide +kernel

example : exchangeStep (fun x => if x = (0, 0) then 1 else 0) (9 / 16) = .ok ([1, 0], 4) := by
  decide +kernel

example : exchangeStep (fun x => if x = (0, 0) then 1 else 0) (8 / 16) = .ok ([0, 1], 3) := by
  decide +kernel

/-- The hopping part of an XX model has no element in the row of two equal spins: the first step from such
a configuration throws. -/
example : markovTerm (R := ℚ) ratOps sampleAmplitude
    [([0, 1], [([1, 0], 1)]), ([1, 0], [([0, 1], 1)])] [(0, 0), (0, 1)] (fun _ => 0, 1) 0 0
    = .error "map::at" := by decide +kernel

end TAT
