import Verif.Square.ErgodicLemmas
import Mathlib.Analysis.Complex.Basic
import Mathlib.Tactic.FieldSimp

/-!
# C56: what `ergodic` computes
-/

namespace TAT

variable {K R : Type}

/-- **C56.**  Real scalars. -/
theorem C56_real_laws [Field K] : ScalarLaws (K := K) ⟨id, fun x => x * x⟩ id where
  re_zero := rfl
  re_add _ _ := rfl
  re_div a z hz := by
    show a / z * (z * z) = z * a
    field_simp
  normSq_zero := mul_zero 0

/-- **C56.**  Complex scalars. -/
theorem C56_complex_laws : ScalarLaws (K := ℂ) ⟨Complex.re, fun z => Complex.normSq z⟩
    (starRingEnd ℂ) where
  re_zero := Complex.zero_re
  re_add := Complex.add_re
  re_div a z hz := by
    have hn : Complex.normSq z ≠ 0 := by simpa using hz
    show (a / z).re * Complex.normSq z = (starRingEnd ℂ z * a).re
    rw [Complex.div_re, Complex.mul_re, Complex.conj_re, Complex.conj_im]
    field_simp
    ring
  normSq_zero := Complex.normSq.map_zero

section

variable [Field K] [DecidableEq K] [Field R] [DecidableEq R]

open scoped Classical in
/-- **C56.**  If `ergodic` returns, it returns the expectation value of the operator: the sum over all
configurations `c` and all `c'` which differ from `c` at most at the sites of the operator, of the real part
of `conj (w c) * O (c, c') * w c'`, over the sum of the squares of the amplitudes. -/
theorem C56_ergodic {ops : ScalarOps K R} {conj : K → K} (laws : ScalarLaws ops conj) {M N d : ℕ}
    [NeZero d] (w : SpinConfig M N d → K) (value : List ℕ → K) (ps : List (ℤ × ℤ))
    (t : ElementTable K) (ht : findElement d ps.length value = .ok t)
    (xs : List (LatticeSite M N)) (hx : sitesAt M N ps = .ok xs) (hn : xs.Nodup)
    (before : SpinConfig M N d) (v : R) (h : ergodic ops w t ps before = .ok v) :
    v = (∑ c : SpinConfig M N d, ∑ c' : SpinConfig M N d,
      if ∀ x, x ∉ xs → c x = c' x then
        ops.re (conj (w c) * value ((xs.map fun x => (c x).val) ++ xs.map fun x => (c' x).val) * w c')
      else 0) / ∑ c : SpinConfig M N d, ops.normSq (w c) := by
  have hd : 0 < d := Nat.pos_of_ne_zero (NeZero.ne d)
  have hb : 0 < ps.length := by
    rcases Nat.eq_zero_or_pos ps.length with e | e
    · rw [e, (C55_no_sites d value).1] at ht
      cases ht
    · exact e
  obtain ⟨t', ht', htab⟩ := findElement_spec hd hb value
  obtain rfl := Outcome.ok.inj (ht.symm.trans ht')
  obtain ⟨s, h1, h2⟩ := bind_ok h
  obtain ⟨-, e1, e2⟩ := ergodicFold_spec laws w htab hx rfl hn before _ _ _ h1
  rw [sum_steps before (fun c => ops.normSq (w c)), zero_add] at e1
  rw [sum_steps before (fun c => localSum ops conj w value xs c), zero_add] at e2
  rw [divScalar] at h2
  split at h2
  · cases h2
  · rw [← Outcome.ok.inj h2, e1, e2]
    refine congrArg (· / _) (Finset.sum_congr rfl fun c _ => ?_)
    rw [localSum]
    refine Finset.sum_congr rfl fun c' _ => ?_
    by_cases ha : ∀ x, x ∉ xs → c x = c' x
    · rw [if_pos ha, if_pos (show Agrees xs c c' from ha), spinsAt, spinsAt]
    · rw [if_neg ha, if_neg (show ¬ Agrees xs c c' from ha)]

/-- **C56.**  If an amplitude is zero, `ergodic` does not return a number, although the expectation value
exists. -/
theorem C56_ergodic_zero_amplitude {ops : ScalarOps K R} {conj : K → K} (laws : ScalarLaws ops conj)
    {M N d : ℕ} [NeZero d] (w : SpinConfig M N d → K) (value : List ℕ → K) (ps : List (ℤ × ℤ))
    (t : ElementTable K) (ht : findElement d ps.length value = .ok t)
    (xs : List (LatticeSite M N)) (hx : sitesAt M N ps = .ok xs) (hn : xs.Nodup)
    (before c : SpinConfig M N d) (hc : w c = 0) (v : R) : ergodic ops w t ps before ≠ .ok v := by
  classical
  intro h
  have hd : 0 < d := Nat.pos_of_ne_zero (NeZero.ne d)
  have hb : 0 < ps.length := by
    rcases Nat.eq_zero_or_pos ps.length with e | e
    · rw [e, (C55_no_sites d value).1] at ht
      cases ht
    · exact e
  obtain ⟨t', ht', htab⟩ := findElement_spec hd hb value
  obtain rfl := Outcome.ok.inj (ht.symm.trans ht')
  obtain ⟨s, h1, -⟩ := bind_ok h
  obtain ⟨e1, -, -⟩ := ergodicFold_spec laws w htab hx rfl hn before _ _ _ h1
  obtain ⟨k, ⟨hk, e⟩, -⟩ := C54_ergodic_enumeration before c
  refine e1 k (by simpa using hk) ?_
  rw [e, hc]

/-- A term can be observed in a configuration whose amplitude is not zero if it acts on one site or two
neighbours and all of its rows have an element which is not zero. -/
theorem observeTerm_returns (ops : ScalarOps K R) {M N d : ℕ} (w : SpinConfig M N d → K) (value : List ℕ → K)
    (ps : List (ℤ × ℤ)) (t : ElementTable K) (hd : 0 < d) (ht : findElement d ps.length value = .ok t)
    (xs : List (LatticeSite M N)) (hx : sitesAt M N ps = .ok xs) (hs : Supported xs)
    (hr : ∀ a, Spins d ps.length a → ∃ b, Spins d ps.length b ∧ value (a ++ b) ≠ 0) (c : SpinConfig M N d)
    (hw : w c ≠ 0) : ∃ v, observeTerm ops w c (w c) t ps = .ok v := by
  have hb : 0 < ps.length := by
    rcases Nat.eq_zero_or_pos ps.length with e | e
    · rw [e, (C55_no_sites d value).1] at ht
      cases ht
    · exact e
  obtain ⟨t', ht', htab⟩ := findElement_spec hd hb value
  obtain rfl := Outcome.ok.inj (ht.symm.trans ht')
  have hlen := sitesAt_length hx
  obtain ⟨b, hb1, hb2⟩ := hr (spinsAt c xs) (hlen ▸ spinsAt_spins c xs)
  cases hf : OMap.find? t (spinsAt c xs) with
  | none => exact absurd hf (htab.2.2 _ b ⟨hlen ▸ spinsAt_spins c xs, hb1, hb2⟩)
  | some row =>
    obtain ⟨v, hv⟩ := foldlM_ok_of (observeElement ops w c (w c) xs) row (by
      rintro v ⟨b', z⟩ he
      obtain ⟨⟨-, k1, -⟩, -⟩ := ((htab.2.1 _ _ hf).2.2 b' z).1
        ((OMap.find?_iff_mem (htab.2.1 _ _ hf).1.nodup).2 he)
      obtain ⟨c', e1, e2, -⟩ := replaceSpins_spec xs hs.nodup b' (hlen.symm ▸ k1) c
      have e3 : replacedAmplitude w c (w c) c' = .ok (w c') := by
        rw [replacedAmplitude_eq, if_pos (hs.replaceable e2)]
      have e4 : divScalar (z * w c') (w c) = .ok (z * w c' / w c) := if_neg hw
      refine ⟨v + ops.re (z * w c' / w c), ?_⟩
      show (replaceSpins c xs b').bind _ = _
      rw [e1]
      show (replacedAmplitude w c (w c) c').bind _ = _
      rw [e3]
      show (divScalar (z * w c') (w c)).bind _ = _
      rw [e4]
      rfl) 0
    refine ⟨v, ?_⟩
    rw [observeTerm, hx]
    show (tableRow t (spinsAt c xs)).bind _ = _
    have : tableRow t (spinsAt c xs) = .ok row := by rw [tableRow, hf]
    rw [this]
    exact hv

/-- **C56.**  With amplitudes which are not zero, `ergodic` returns for an operator on one site or two
neighbours all of whose rows have an element which is not zero. -/
theorem C56_ergodic_returns (ops : ScalarOps K R) {M N d : ℕ}
    [NeZero d] (w : SpinConfig M N d → K) (value : List ℕ → K) (ps : List (ℤ × ℤ))
    (t : ElementTable K) (ht : findElement d ps.length value = .ok t)
    (xs : List (LatticeSite M N)) (hx : sitesAt M N ps = .ok xs) (hs : Supported xs)
    (hw : ∀ c, w c ≠ 0)
    (hr : ∀ a, Spins d ps.length a → ∃ b, Spins d ps.length b ∧ value (a ++ b) ≠ 0)
    (hnorm : ∑ c : SpinConfig M N d, ops.normSq (w c) ≠ 0)
    (before : SpinConfig M N d) : ∃ v, ergodic ops w t ps before = .ok v := by
  classical
  have hd : 0 < d := Nat.pos_of_ne_zero (NeZero.ne d)
  have hobs : ∀ c : SpinConfig M N d, ∃ v, observeTerm ops w c (w c) t ps = .ok v := fun c =>
    observeTerm_returns ops w value ps t hd ht xs hx hs hr c (hw c)
  have hfold : ∀ (l : List ℕ) (s : SpinConfig M N d × R × R),
      ∃ s', l.foldlM (ergodicStep ops w t ps) s = .ok s' ∧
        s'.2.1 = s.2.1 + (l.map fun k => ops.normSq (w (ergodicSpin before k))).sum := by
    intro l
    induction l with
    | nil => exact fun s => ⟨s, rfl, by simp⟩
    | cons k l ih =>
      intro s
      obtain ⟨v, hv⟩ := hobs (ergodicSpin before k)
      obtain ⟨s', g1, g2⟩ := ih (ergodicSpin before k, s.2.1 + ops.normSq (w (ergodicSpin before k)),
        s.2.2 + v * ops.normSq (w (ergodicSpin before k)))
      refine ⟨s', ?_, by rw [g2, List.map_cons, List.sum_cons, add_assoc]⟩
      rw [List.foldlM_cons]
      have : ergodicStep ops w t ps s k = .ok (ergodicSpin before k,
          s.2.1 + ops.normSq (w (ergodicSpin before k)),
          s.2.2 + v * ops.normSq (w (ergodicSpin before k))) := by
        rw [ergodicStep, C54_ergodic_forgets s.1 before]
        show (observeTerm ops w _ _ t ps).bind _ = _
        rw [hv]
        rfl
      rw [this]
      exact g1
  obtain ⟨s', g1, g2⟩ := hfold (List.range (d ^ (M * N))) (before, 0, 0)
  rw [sum_steps before (fun c => ops.normSq (w c)), zero_add] at g2
  refine ⟨s'.2.2 / s'.2.1, ?_⟩
  rw [ergodic, g1]
  show divScalar _ _ = _
  rw [divScalar, if_neg (by rw [g2]; exact hnorm)]

end

/-! A lattice of one row of two sites with two spins; the amplitude is one more than three times the first
spin and twice the second. -/

/-- Amplitudes on one row of two sites. -/
def sampleAmplitude : SpinConfig 1 2 2 → ℚ := fun c => 1 + 3 * (c (0, 0)).val + 2 * (c (0, 1)).val

/-- Real scalars. -/
def ratOps : ScalarOps ℚ ℚ := ⟨id, fun x => x * x⟩

/-- The exchange of two spins. -/
def exchangeTable : ElementTable ℚ := [([0, 0], [([0, 0], 1)]), ([0, 1], [([1, 0], 1)]),
    ([1, 0], [([0, 1], 1)]), ([1, 1], [([1, 1], 1)])]

example : findElement 2 2 exchangeValue = .ok exchangeTable := by decide +kernel

example : sitesAt 1 2 [(0, 0), (0, 1)] = .ok [(0, 0), (0, 1)] := by decide +kernel

example : Supported (M := 1) (N := 2) [(0, 0), (0, 1)] :=
  Or.inr ⟨_, _, rfl, Or.inl (Or.inl ⟨rfl, rfl⟩)⟩

example : ∀ c, sampleAmplitude c ≠ 0 := by decide +kernel

/-- The amplitudes are 1, 3, 4 and 6: `(1 + 3 * 4 + 4 * 3 + 36) / (1 + 9 + 16 + 36)`. -/
example : ergodic ratOps sampleAmplitude exchangeTable [(0, 0), (0, 1)] (fun _ => 0) = .ok (61 / 62) := by
  decide +kernel

/-- The amplitude of two upper spins is zero: the expectation value is `(1 + 2 * 3 * 4) / 26`, but there is
a division by zero. -/
example : ergodic ratOps (fun c => if c (0, 0) = 1 ∧ c (0, 1) = 1 then 0 else sampleAmplitude c)
    exchangeTable [(0, 0), (0, 1)] (fun _ => 0) = .error "nan" := by decide +kernel

/-- Raising a spin, an operator with a zero row, cannot be observed. -/
example : ergodic ratOps sampleAmplitude [([0], [([1], 1)])] [(0, 0)] (fun _ => 0)
    = .error "map::at" := by decide +kernel

/-- Nor can an operator on three sites which changes all of them. -/
example : ergodic (M := 1) (N := 3) (d := 2) ratOps (fun _ => 1)
    [([0, 0, 0], [([1, 1, 1], 1)])] [(0, 0), (0, 1), (0, 2)] (fun _ => 0)
    = .error "Unsupported replacement style" := by decide +kernel

end TAT
