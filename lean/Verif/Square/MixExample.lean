import Verif.Square.MixRun
import Verif.Square.GradExample

/-!
# C75: cases

Two neighbours whose spins are exchanged, with amplitudes only where the spins are different.
-/

namespace TAT

open Finset

/-- Rational amplitudes, real probabilities. -/
noncomputable def ratReal : ScalarOps ℚ ℝ := ⟨fun x => (x : ℝ), fun x => ((x * x : ℚ) : ℝ)⟩

theorem ratReal_norm : NormLaws ratReal where
  normSq_div a b := by
    show ((a / b * (a / b) : ℚ) : ℝ) = ((a * a : ℚ) : ℝ) / ((b * b : ℚ) : ℝ)
    rw [div_mul_div_comm, Rat.cast_div]
  normSq_nonneg a := by
    show (0 : ℝ) ≤ ((a * a : ℚ) : ℝ)
    exact_mod_cast mul_self_nonneg a
  normSq_eq_zero a := by
    show ((a * a : ℚ) : ℝ) = 0 ↔ a = 0
    rw [Rat.cast_eq_zero, mul_self_eq_zero]

theorem ratReal_laws : ScalarLaws ratReal (RingHom.id ℚ) where
  re_zero := Rat.cast_zero
  re_add a b := Rat.cast_add a b
  re_div a z hz := by
    show ((a / z : ℚ) : ℝ) * ((z * z : ℚ) : ℝ) = ((z * a : ℚ) : ℝ)
    rw [← Rat.cast_mul]
    congr 1
    field_simp
  normSq_zero := by
    show ((0 * 0 : ℚ) : ℝ) = 0
    norm_num

/-- The table of hoppings of the exchange. -/
def exchangePairs : ElementTable ℚ := [([0, 0], []), ([0, 1], [([1, 0], 1)]), ([1, 0], [([0, 1], 1)]), ([1, 1], [])]

/-- One term: the exchange of the spins at the sites of a lattice of one row and two columns. -/
def exchangeHop : List (ElementTable ℚ × List (ℤ × ℤ)) := [(exchangePairs, [(0, 0), (0, 1)])]

/-- Its sites. -/
def exchangeSites : List (LatticeSite 1 2) := [(0, 0), (0, 1)]

theorem exchangeHop_term : HoppingTerm 1 2 2 (exchangeValueOf ℚ) exchangePairs [(0, 0), (0, 1)] exchangeSites := by
  obtain ⟨t, ht⟩ := exchange_term
  have : findHopping 2 2 (exchangeValueOf ℚ) = .ok exchangePairs := by decide +kernel
  obtain rfl : t = exchangePairs := Outcome.ok.inj (ht.table.symm.trans this)
  exact ht

theorem exchangeHop_ok : HopsOk 1 2 2 exchangeHop := by
  intro e he
  obtain rfl := List.mem_singleton.1 he
  exact ⟨_, _, exchangeHop_term, Or.inr ⟨_, _, rfl, Or.inl (Or.inl ⟨by decide, by decide⟩)⟩, fun a ha => exchange_rows a ha⟩

/-- Spins 0, 1. -/
def spins01 : SpinConfig 1 2 2 := fun x => if x = (0, 1) then 1 else 0

/-- Spins 1, 0. -/
def spins10 : SpinConfig 1 2 2 := fun x => if x = (0, 0) then 1 else 0

/-- Amplitudes of spins 0, 1 and of spins 1, 0; the others are zero. -/
def pairAmplitude (a b : ℚ) (c : SpinConfig 1 2 2) : ℚ := if c = spins01 then a else if c = spins10 then b else 0

theorem pairAmplitude_cases {a b : ℚ} {c : SpinConfig 1 2 2} (h : pairAmplitude a b c ≠ 0) :
    c = spins01 ∨ c = spins10 := by
  rw [pairAmplitude] at h
  split at h
  · exact Or.inl ‹_›
  · split at h
    · exact Or.inr ‹_›
    · exact absurd rfl h

theorem exchange_hops : Hops 1 2 2 exchangeHop spins01 spins10 :=
  ⟨_, List.mem_singleton.2 rfl, _, _, exchangeHop_term, by decide, by decide +kernel⟩

theorem exchange_joined {a b : ℚ} (hb : b ≠ 0) (c' : SpinConfig 1 2 2) (h : pairAmplitude a b c' ≠ 0) :
    Relation.ReflTransGen (fun x y => pairAmplitude a b y ≠ 0 ∧ Hops 1 2 2 exchangeHop x y) spins01 c' := by
  rcases pairAmplitude_cases h with rfl | rfl
  · exact .refl
  · refine .single ⟨?_, exchange_hops⟩
    rw [pairAmplitude, if_neg (by decide), if_pos rfl]
    exact hb

/-- With amplitudes 3 and 4 no hopping joins configurations of the same weight. -/
theorem exchange_uneven : Uneven ratReal (pairAmplitude 3 4) exchangeHop := by
  intro e he value xs h c c' hne hc hc' _ _
  obtain rfl := List.mem_singleton.1 he
  obtain rfl : xs = exchangeSites := Outcome.ok.inj (h.sites.symm.trans exchangeHop_term.sites)
  have key : ∀ c c' : SpinConfig 1 2 2, (c = spins01 ∨ c = spins10) → (c' = spins01 ∨ c' = spins10) → c ≠ c' →
      pairAmplitude 3 4 c * pairAmplitude 3 4 c * rowLength exchangePairs (spinsAt c' exchangeSites) ≠
        pairAmplitude 3 4 c' * pairAmplitude 3 4 c' * rowLength exchangePairs (spinsAt c exchangeSites) := by
    rintro c c' (rfl | rfl) (rfl | rfl) h
    · exact absurd rfl h
    · decide +kernel
    · decide +kernel
    · exact absurd rfl h
  have := key c c' (pairAmplitude_cases hc) (pairAmplitude_cases hc') hne
  intro he
  apply this
  have he' : ((pairAmplitude 3 4 c * pairAmplitude 3 4 c : ℚ) : ℝ) *
      ((rowLength exchangePairs (spinsAt c' exchangeSites) : ℕ) : ℝ) =
      ((pairAmplitude 3 4 c' * pairAmplitude 3 4 c' : ℚ) : ℝ) *
      ((rowLength exchangePairs (spinsAt c exchangeSites) : ℕ) : ℝ) := he
  exact_mod_cast he'

/-- The spin of the first site, one for 0 and minus one for 1. -/
def firstSpin : Observable 1 2 ℚ where
  value := fun l => if l = [0, 0] then 1 else if l = [1, 1] then -1 else 0
  table := [([0], [([0], 1)]), ([1], [([1], -1)])]
  positions := [(0, 0)]
  sites := [(0, 0)]

theorem firstSpin_ok : ObservableOk 2 firstSpin := ⟨by decide +kernel, by decide +kernel, by decide⟩

/-- The hypotheses of `C75_estimate_partial` are met: the means of the first spin tend to its expectation value. -/
example : ∃ B, ∀ n, 0 < n → chainMean (sweepProb ratReal (pairAmplitude 3 4) exchangeHop) n (fun cs =>
    (meanOver cs (fun c' => ratReal.re (localValue (pairAmplitude 3 4) firstSpin c')) -
      expectation ratReal (RingHom.id ℚ) (pairAmplitude 3 4) firstSpin) ^ 2) spins01 ≤ B / n :=
  C75_estimate_partial ratReal_norm ratReal_laws (by norm_num) exchangeHop_ok exchange_uneven (by decide +kernel)
    (exchange_joined (by norm_num)) firstSpin

theorem expectation_pair (a b : ℚ) (q : ℚ) (h : (∑ c, ∑ c', pairAmplitude a b c * observableElement firstSpin c c' *
    pairAmplitude a b c') / ∑ c, pairAmplitude a b c * pairAmplitude a b c = q) :
    expectation ratReal (RingHom.id ℚ) (pairAmplitude a b) firstSpin = q := by
  rw [← h, Rat.cast_div, expectation]
  congr 1
  show ∑ c, ((pairAmplitude a b c * pairAmplitude a b c : ℚ) : ℝ) = _
  rw [Rat.cast_sum]

/-- It is (9 - 16) / 25. -/
example : expectation ratReal (RingHom.id ℚ) (pairAmplitude 3 4) firstSpin = ((-7 / 25 : ℚ) : ℝ) :=
  expectation_pair 3 4 _ (by decide +kernel)

/-- With equal amplitudes hoppings keep the absolute value. -/
theorem exchange_keeps (c c' : SpinConfig 1 2 2) (h : Hops 1 2 2 exchangeHop c c') :
    ratReal.normSq (pairAmplitude 1 1 c) = ratReal.normSq (pairAmplitude 1 1 c') := by
  obtain ⟨e, he, value, xs, ht, -, hv⟩ := h
  obtain rfl := List.mem_singleton.1 he
  obtain rfl : xs = exchangeSites := Outcome.ok.inj (ht.sites.symm.trans exchangeHop_term.sites)
  by_cases hcc : c = c'
  · rw [hcc]
  have hel : Element 2 2 value (spinsAt c exchangeSites) (spinsAt c' exchangeSites) :=
    ⟨spinsAt_spins c exchangeSites, spinsAt_spins c' exchangeSites, hv⟩
  have hne : spinsAt c exchangeSites ≠ spinsAt c' exchangeSites := by
    have all : ∀ c c' : SpinConfig 1 2 2, spinsAt c exchangeSites = spinsAt c' exchangeSites → c = c' := by decide +kernel
    exact fun h => hcc (all c c' h)
  obtain ⟨htab, -⟩ := ht.spec (by norm_num)
  obtain ⟨row, hrow⟩ := Option.ne_none_iff_exists'.1 (htab.2.2 _ _ hel)
  have hmem := (hopping_mem htab hrow (spinsAt c' exchangeSites, value (spinsAt c exchangeSites ++
    spinsAt c' exchangeSites))).2 ⟨⟨hel, hne⟩, rfl⟩
  have key : ∀ c c' : SpinConfig 1 2 2, (∃ row, OMap.find? exchangePairs (spinsAt c exchangeSites) = some row ∧
      spinsAt c' exchangeSites ∈ row.map Prod.fst) →
      pairAmplitude 1 1 c * pairAmplitude 1 1 c = pairAmplitude 1 1 c' * pairAmplitude 1 1 c' := by
    intro c c'
    rintro ⟨row, h1, h2⟩
    have : spinsAt c' exchangeSites ∈
        ((OMap.find? exchangePairs (spinsAt c exchangeSites)).getD []).map Prod.fst := by
      rw [h1]
      exact h2
    revert this
    clear h1 h2
    revert c c'
    decide +kernel
  exact congrArg (Rat.cast (K := ℝ)) (key c c' ⟨row, hrow, List.mem_map_of_mem (f := Prod.fst) hmem⟩)

/-- **C75** does not always hold: two neighbours, the exchange of their spins and the state with equal amplitudes for the
spins 0, 1 and 1, 0.  The hoppings join all configurations whose amplitude is not zero.  But every step leads back
to where it started: the mean of the first spin is one after any number of steps, and its expectation value is zero. -/
theorem C75_not_always :
    HopsOk 1 2 2 exchangeHop ∧ ObservableOk 2 firstSpin ∧ pairAmplitude 1 1 spins01 ≠ 0 ∧
    (∀ c', pairAmplitude 1 1 c' ≠ 0 →
      Relation.ReflTransGen (fun x y => pairAmplitude 1 1 y ≠ 0 ∧ Hops 1 2 2 exchangeHop x y) spins01 c') ∧
    (∀ random : ℕ → ℕ → ℕ × ℝ, (∀ k j, (random k j).1 = 0 ∧ (random k j).2 < 1) →
      ∀ n, ∃ cs, cs.length = n ∧ Visits ratReal (pairAmplitude 1 1) exchangeHop random spins01 0 cs) ∧
    (∀ random : ℕ → ℕ → ℕ × ℝ, (∀ k j, (random k j).1 = 0 ∧ (random k j).2 < 1) → ∀ cs, cs ≠ [] →
      Visits ratReal (pairAmplitude 1 1) exchangeHop random spins01 0 cs →
      meanOver cs (fun c' => ratReal.re (localValue (pairAmplitude 1 1) firstSpin c')) = 1) ∧
    expectation ratReal (RingHom.id ℚ) (pairAmplitude 1 1) firstSpin = 0 := by
  have hc : pairAmplitude 1 1 spins01 ≠ 0 := by decide +kernel
  have frozen := fun random hr k cs => C75_frozen ratReal_norm (by norm_num) exchangeHop_ok (by
    intro e he a
    obtain rfl := List.mem_singleton.1 he
    rw [rowLength]
    cases h : OMap.find? exchangePairs a with
    | none => simp
    | some row =>
      have : (a, row) ∈ exchangePairs := OMap.mem_of_find? h
      have all : ∀ x ∈ exchangePairs, x.2.length ≤ 1 := by decide
      exact all _ this) exchange_keeps hc random hr k cs
  refine ⟨exchangeHop_ok, firstSpin_ok, hc, exchange_joined one_ne_zero, fun random hr n => ?_,
    fun random hr cs hne hv => ?_, ?_⟩
  · exact ⟨List.replicate n spins01, by simp, (frozen random hr 0 _).2 fun c' hc' => List.eq_of_mem_replicate hc'⟩
  · have hall := (frozen random hr 0 cs).1 hv
    have hrep := List.eq_replicate_of_mem hall
    rw [meanOver, hrep]
    have hlv : ratReal.re (localValue (pairAmplitude 1 1) firstSpin spins01) = 1 := by
      have : localValue (pairAmplitude 1 1) firstSpin spins01 = 1 := by decide +kernel
      rw [this]
      exact Rat.cast_one
    rw [List.map_replicate, List.sum_replicate, List.length_replicate, hlv, nsmul_eq_mul, mul_one, div_self]
    exact_mod_cast (List.length_pos_iff.2 hne).ne'
  · rw [expectation_pair 1 1 0 (by decide +kernel), Rat.cast_zero]

/-- `equilibrate` returns after one step, with the spins of the first column exchanged. -/
example : ∃ lp : LapackQr ℚ, ∃ st st' : SpinState 2 2 String ℚ, ∃ cut,
    setSpins (netEnv0 lp) spinLattice0 .empty (codeSets spinSets0) = .ok st ∧
    equilibrate (netEnv0 lp) ratOps cut spinLattice0 gradHop0 1 gradRandom0 st = .ok st' ∧
    ∀ x, st.conf x = some (x.1 : Fin 2).val ∧ st'.conf x = some (gradConf0 x).val := by
  obtain ⟨lp, hlp⟩ := exists_lapackQrOk (K := ℚ)
  obtain ⟨st, h1, h2, h3⟩ := C64_set (e := netEnv0 lp) (auxEnv0_ok hlp) spinLattice0_on spinSets0
  have hc : ∀ x, st.conf x = some (x.1 : Fin 2).val := fun x => (h3 x).trans (spinSets0_last x)
  obtain ⟨B, hB⟩ := C75_equilibrate (e := netEnv0 lp) (ops := ratOps) (auxEnv0_ok hlp) spinLattice0_on (by decide)
    (by decide) gradHop0_ok
  obtain ⟨k1, k2⟩ := hB B (Or.inl le_rfl) 1 gradRandom0 st (fun x => x.1) ⟨h2, hc⟩
  have hv : Visits ratOps (sitesAmp (netEnv0 lp).nm auxH0 auxV0 spinLattice0) (gradHop0.map Prod.fst) gradRandom0
      (fun x => x.1) 0 [gradConf0] := ⟨gradVisits0.1, trivial⟩
  obtain ⟨st', hst'⟩ := k2 [gradConf0] rfl hv
  obtain ⟨cs, l1, l2, l3⟩ := k1 st' hst'
  obtain rfl := Visits.unique l2 hv l1
  exact ⟨lp, st, st', B, h1, hst', fun x => ⟨hc x, l3.2 x⟩⟩

end TAT
