import Verif.Square.ErgodicLemmas
import Mathlib.MeasureTheory.Measure.Lebesgue.Basic
import Mathlib.MeasureTheory.Measure.Real
import Mathlib.Tactic.FieldSimp

/-!
# Lemmas about the Markov chain
-/

namespace TAT

open MeasureTheory

variable {K : Type}

/-- What is used about `std::norm`. -/
structure NormLaws [Field K] (ops : ScalarOps K ℝ) : Prop where
  normSq_div : ∀ a b, ops.normSq (a / b) = ops.normSq a / ops.normSq b
  normSq_nonneg : ∀ a, 0 ≤ ops.normSq a
  normSq_eq_zero : ∀ a, ops.normSq a = 0 ↔ a = 0

/-- The number of hoppings from some spins. -/
def rowLength (t : ElementTable K) (a : List ℕ) : ℕ := ((OMap.find? t a).getD []).length

/-- How many random indices are possible. -/
def indexCount {M N d : ℕ} (t : ElementTable K) (ps : List (ℤ × ℤ)) (c : SpinConfig M N d) : ℕ :=
  match sitesAt M N ps with
  | .ok xs => max 1 (rowLength t (spinsAt c xs))
  | _ => 1

/-- The probability that a term leads from one configuration to another: the random index is uniform among
the possible ones, the random number in the interval from zero to one. -/
noncomputable def markovProb [Field K] [DecidableEq K] (ops : ScalarOps K ℝ) {M N d : ℕ}
    (w : SpinConfig M N d → K) (t : ElementTable K) (ps : List (ℤ × ℤ)) (c c' : SpinConfig M N d) : ℝ :=
  (∑ r ∈ Finset.range (indexCount t ps c), volume.real
    {u : ℝ | u ∈ Set.Ico (0 : ℝ) 1 ∧ markovTerm ops w t ps (c, w c) r u = .ok (c', w c')}) /
  (indexCount t ps c : ℝ)

theorem volume_lt (p : ℝ) (hp : 0 ≤ p) :
    volume.real {u : ℝ | u ∈ Set.Ico (0 : ℝ) 1 ∧ u < p} = min p 1 := by
  have : {u : ℝ | u ∈ Set.Ico (0 : ℝ) 1 ∧ u < p} = Set.Ico 0 (min p 1) := by
    ext u
    simp only [Set.mem_ofPred_eq, Set.mem_Ico, lt_min_iff]
    constructor
    · rintro ⟨⟨h1, h2⟩, h3⟩; exact ⟨h1, h3, h2⟩
    · rintro ⟨h1, h3, h2⟩; exact ⟨⟨h1, h2⟩, h3⟩
  rw [this, Real.volume_real_Ico, sub_zero]
  exact max_eq_left (le_min hp zero_le_one)

section

variable [Field K] [DecidableEq K]

/-- The table of hoppings. -/
abbrev HoppingTable (d body : ℕ) (value : List ℕ → K) (t : ElementTable K) : Prop :=
  TableOf value (fun a b => Element d body value a b ∧ a ≠ b) (Element d body value) t

theorem hopping_mem {d body : ℕ} {value : List ℕ → K} {t : ElementTable K}
    (ht : HoppingTable d body value t) {a : List ℕ} {row : List (List ℕ × K)}
    (hrow : OMap.find? t a = some row) (e : List ℕ × K) :
    e ∈ row ↔ (Element d body value a e.1 ∧ a ≠ e.1) ∧ e.2 = value (a ++ e.1) := by
  obtain ⟨h1, -, h2⟩ := ht.2.1 _ _ hrow
  exact (OMap.find?_iff_mem h1.nodup (k := e.1) (v := e.2)).symm.trans (h2 _ _)

/-- What a term does with a random index and a random number. -/
theorem markovTerm_eq {ops : ScalarOps K ℝ} {M N d : ℕ} (w : SpinConfig M N d → K) {body : ℕ}
    {value : List ℕ → K} {t : ElementTable K} (ht : HoppingTable d body value t)
    (sym : ∀ a b, Element d body value a b → Element d body value b a)
    {ps : List (ℤ × ℤ)} {xs : List (LatticeSite M N)} (hx : sitesAt M N ps = .ok xs)
    (hb : ps.length = body) (hn : xs.Nodup) (c : SpinConfig M N d) {row : List (List ℕ × K)}
    (hrow : OMap.find? t (spinsAt c xs) = some row) (r : ℕ) (hr : r < row.length) (u : ℝ) :
    ∃ c', Agrees xs c c' ∧ spinsAt c' xs = row[r].1 ∧ 0 < rowLength t (spinsAt c' xs) ∧
      markovTerm ops w t ps (c, w c) r u =
        if replaceable (diffSites c c') then
          if w c = 0 then .error "nan"
          else if u < ops.normSq (w c' / w c) * row.length / rowLength t (spinsAt c' xs) then
            .ok (c', w c') else .ok (c, w c)
        else .error "Unsupported replacement style" := by
  have hlen := (sitesAt_length hx).trans hb
  obtain ⟨⟨he, hne⟩, hv⟩ := (hopping_mem ht hrow row[r]).1 (List.getElem_mem hr)
  obtain ⟨c', e1, e2, e3⟩ := replaceSpins_spec xs hn row[r].1 (hlen.symm ▸ he.2.1) c
  have hsym := sym _ _ he
  obtain ⟨row', hrow'⟩ : ∃ row', OMap.find? t row[r].1 = some row' :=
    Option.ne_none_iff_exists'.1 (ht.2.2 _ _ hsym)
  have hpos : 0 < row'.length := by
    have : (spinsAt c xs, value (row[r].1 ++ spinsAt c xs)) ∈ row' :=
      (hopping_mem ht hrow' _).2 ⟨⟨hsym, fun h => hne h.symm⟩, rfl⟩
    exact List.length_pos_of_mem this
  have hrl : rowLength t (spinsAt c' xs) = row'.length := by rw [rowLength, e3, hrow']; rfl
  refine ⟨c', e2, e3, by rw [hrl]; exact hpos, ?_⟩
  have k1 : tableRow t (spinsAt c xs) = .ok row := by rw [tableRow, hrow]
  have k2 : tableRow t row[r].1 = .ok row' := by rw [tableRow, hrow']
  have k3 : row ≠ [] := List.ne_nil_of_length_pos (by omega)
  rw [markovTerm, hx]
  show (tableRow t (spinsAt c xs)).bind _ = _
  rw [k1]
  show (if row = [] then _ else _) = _
  rw [if_neg k3, List.getElem?_eq_getElem hr]
  show (replaceSpins c xs row[r].1).bind _ = _
  rw [e1]
  show (replacedAmplitude w c (w c) c').bind _ = _
  rw [replacedAmplitude_eq]
  by_cases hd : replaceable (diffSites c c') = true
  · rw [if_pos hd, if_pos hd]
    show (tableRow t row[r].1).bind _ = _
    rw [k2]
    show (divScalar (w c') (w c)).bind _ = _
    rw [divScalar]
    by_cases hw : w c = 0
    · rw [if_pos hw, if_pos hw]; rfl
    · rw [if_neg hw, if_neg hw]
      show (if hoppingAccepted (ops.normSq (w c' / w c)) row.length row'.length u then _ else _) = _
      rw [hoppingAccepted, if_neg hpos.ne', hrl]
      by_cases hu : u < ops.normSq (w c' / w c) * row.length / row'.length
      · rw [if_pos hu, if_pos (decide_eq_true hu)]
      · rw [if_neg hu, if_neg (by simpa using hu)]
  · rw [if_neg hd, if_neg hd]; rfl

theorem markovTerm_empty {ops : ScalarOps K ℝ} {M N d : ℕ} (w : SpinConfig M N d → K)
    {t : ElementTable K} {ps : List (ℤ × ℤ)} {xs : List (LatticeSite M N)}
    (hx : sitesAt M N ps = .ok xs) (c : SpinConfig M N d)
    (hrow : OMap.find? t (spinsAt c xs) = some []) (r : ℕ) (u : ℝ) :
    markovTerm ops w t ps (c, w c) r u = .ok (c, w c) := by
  have k1 : tableRow t (spinsAt c xs) = .ok [] := by rw [tableRow, hrow]
  rw [markovTerm, hx]
  show (tableRow t (spinsAt c xs)).bind _ = _
  rw [k1]
  rfl

theorem markovTerm_none {ops : ScalarOps K ℝ} {M N d : ℕ} (w : SpinConfig M N d → K)
    {t : ElementTable K} {ps : List (ℤ × ℤ)} {xs : List (LatticeSite M N)}
    (hx : sitesAt M N ps = .ok xs) (c : SpinConfig M N d)
    (hrow : OMap.find? t (spinsAt c xs) = none) (r : ℕ) (u : ℝ) :
    markovTerm ops w t ps (c, w c) r u = .error "map::at" := by
  have k1 : tableRow t (spinsAt c xs) = .error "map::at" := by rw [tableRow, hrow]
  rw [markovTerm, hx]
  show (tableRow t (spinsAt c xs)).bind _ = _
  rw [k1]
  rfl

open scoped Classical in
/-- The probability of a hopping between two configurations. -/
theorem markovProb_off {ops : ScalarOps K ℝ} (laws : NormLaws ops) {M N d : ℕ}
    (w : SpinConfig M N d → K) {body : ℕ}
    {value : List ℕ → K} {t : ElementTable K} (ht : HoppingTable d body value t)
    (sym : ∀ a b, Element d body value a b → Element d body value b a)
    {ps : List (ℤ × ℤ)} {xs : List (LatticeSite M N)} (hx : sitesAt M N ps = .ok xs)
    (hb : ps.length = body) (hn : xs.Nodup) (c c' : SpinConfig M N d) (hc : c ≠ c') :
    markovProb ops w t ps c c' =
      if Agrees xs c c' ∧ Element d body value (spinsAt c xs) (spinsAt c' xs) ∧
          replaceable (diffSites c c') = true ∧ w c ≠ 0 then
        min (ops.normSq (w c' / w c) * rowLength t (spinsAt c xs) / rowLength t (spinsAt c' xs)) 1 /
          rowLength t (spinsAt c xs)
      else 0 := by
  have zero : ∀ (r : ℕ), (∀ u : ℝ, markovTerm ops w t ps (c, w c) r u ≠ .ok (c', w c')) →
      volume.real {u : ℝ | u ∈ Set.Ico (0 : ℝ) 1 ∧
        markovTerm ops w t ps (c, w c) r u = .ok (c', w c')} = 0 := by
    intro r h
    have : {u : ℝ | u ∈ Set.Ico (0 : ℝ) 1 ∧
        markovTerm ops w t ps (c, w c) r u = .ok (c', w c')} = ∅ := by
      refine Set.eq_empty_of_forall_notMem ?_
      rintro u ⟨-, hu⟩
      exact h u hu
    rw [this]
    exact measureReal_empty
  have hcount : indexCount t ps c = max 1 (rowLength t (spinsAt c xs)) := by rw [indexCount, hx]
  have okinj : ∀ {x y : SpinConfig M N d × K}, Outcome.ok x = Outcome.ok y → x.1 = y.1 :=
    fun h => congrArg Prod.fst (Outcome.ok.inj h)
  rw [markovProb, hcount]
  cases hrow : OMap.find? t (spinsAt c xs) with
  | none =>
    rw [Finset.sum_eq_zero (fun r _ => zero r fun u => by
      rw [markovTerm_none w hx c hrow]; exact fun h => by cases h), zero_div, if_neg]
    rintro ⟨-, h, -⟩
    exact ht.2.2 _ _ h hrow
  | some row =>
    have hrl : rowLength t (spinsAt c xs) = row.length := by rw [rowLength, hrow]; rfl
    rw [hrl]
    by_cases hne : row = []
    · subst hne
      rw [Finset.sum_eq_zero (fun r _ => zero r fun u => by
        rw [markovTerm_empty w hx c hrow]
        exact fun h => hc (okinj h)), zero_div, if_neg]
      rintro ⟨h1, h2, -⟩
      have hd : spinsAt c xs ≠ spinsAt c' xs := fun h => hc (agrees_ext (fun _ _ => rfl) h1 h)
      exact absurd ((hopping_mem ht hrow
        (spinsAt c' xs, value (spinsAt c xs ++ spinsAt c' xs))).2 ⟨⟨h2, hd⟩, rfl⟩) (by simp)
    · have hpos : 0 < row.length := List.length_pos_iff.2 hne
      rw [max_eq_right (show 1 ≤ row.length from hpos)]
      split
      · rename_i h
        obtain ⟨h1, h2, h3, h4⟩ := h
        have hd : spinsAt c xs ≠ spinsAt c' xs := fun h => hc (agrees_ext (fun _ _ => rfl) h1 h)
        have hmem := (hopping_mem ht hrow (spinsAt c' xs, value (spinsAt c xs ++ spinsAt c' xs))).2
          ⟨⟨h2, hd⟩, rfl⟩
        obtain ⟨r0, hr0, er0⟩ := List.getElem_of_mem hmem
        have hnd : (row.map Prod.fst).Nodup := (ht.2.1 _ _ hrow).1.nodup
        congr 1
        rw [Finset.sum_eq_single r0]
        · rw [← volume_lt _ (by
            have := laws.normSq_nonneg (w c' / w c)
            positivity)]
          congr 1
          ext u
          simp only [Set.mem_ofPred_eq, and_congr_right_iff]
          intro _
          obtain ⟨c'', e1, e2, -, e4⟩ := markovTerm_eq (ops := ops) w ht sym hx hb hn c hrow r0 hr0 u
          rw [er0] at e2
          have : c'' = c' := agrees_ext e1 h1 e2
          subst this
          rw [e4, if_pos h3, if_neg h4]
          split
          · rename_i hu
            exact ⟨fun _ => hu, fun _ => rfl⟩
          · rename_i hu
            exact ⟨fun h => absurd (okinj h) hc, fun h => absurd h hu⟩
        · intro r hr hrr
          have hr' := Finset.mem_range.1 hr
          refine zero r fun u => ?_
          obtain ⟨c'', e1, e2, -, e4⟩ := markovTerm_eq (ops := ops) w ht sym hx hb hn c hrow r hr' u
          have hne' : c'' ≠ c' := by
            rintro rfl
            apply hrr
            have l1 : r < (row.map Prod.fst).length := by simpa using hr'
            have l2 : r0 < (row.map Prod.fst).length := by simpa using hr0
            refine (List.Nodup.getElem_inj_iff hnd (hi := l1) (hj := l2)).1 ?_
            rw [List.getElem_map, List.getElem_map, ← e2, er0]
          rw [e4, if_neg h4]
          split
          · split
            · exact fun h => hne' (okinj h)
            · exact fun h => hc (okinj h)
          · exact fun h => by cases h
        · intro h
          exact absurd (Finset.mem_range.2 hr0) h
      · rename_i h
        rw [Finset.sum_eq_zero, zero_div]
        intro r hr
        have hr' := Finset.mem_range.1 hr
        refine zero r fun u => ?_
        obtain ⟨c'', e1, e2, -, e4⟩ := markovTerm_eq (ops := ops) w ht sym hx hb hn c hrow r hr' u
        rw [e4]
        split
        · rename_i hrep
          split
          · exact fun h => by cases h
          · rename_i hw
            split
            · intro he
              have := okinj he
              subst this
              refine h ⟨e1, ?_, hrep, hw⟩
              rw [e2]
              exact ((hopping_mem ht hrow _).1 (List.getElem_mem hr')).1.1
            · exact fun h => hc (okinj h)
        · exact fun h => by cases h

/-- The probabilities add up to one if the term always returns. -/
theorem markovProb_sum_of_ok {ops : ScalarOps K ℝ} {M N d : ℕ} (w : SpinConfig M N d → K)
    (t : ElementTable K) (ps : List (ℤ × ℤ)) (c : SpinConfig M N d) (hpos : 0 < indexCount t ps c)
    (h : ∀ r < indexCount t ps c, ∃ c1 p, ∀ u : ℝ, markovTerm ops w t ps (c, w c) r u =
      if u < p then .ok (c1, w c1) else .ok (c, w c)) :
    ∑ c', markovProb ops w t ps c c' = 1 := by
  classical
  simp only [markovProb]
  rw [← Finset.sum_div, Finset.sum_comm, Finset.sum_congr rfl (g := fun _ => (1 : ℝ))]
  · rw [Finset.sum_const, Finset.card_range, nsmul_eq_mul, mul_one, div_self]
    exact_mod_cast hpos.ne'
  · intro r hr
    obtain ⟨c1, p, hp⟩ := h r (Finset.mem_range.1 hr)
    have okinj : ∀ {x y : SpinConfig M N d × K}, Outcome.ok x = Outcome.ok y → x.1 = y.1 :=
      fun h => congrArg Prod.fst (Outcome.ok.inj h)
    have heq : ∀ c', {u : ℝ | u ∈ Set.Ico (0 : ℝ) 1 ∧
        markovTerm ops w t ps (c, w c) r u = .ok (c', w c')} =
        {u : ℝ | u ∈ Set.Ico (0 : ℝ) 1 ∧ (if u < p then c1 else c) = c'} := by
      intro c'
      ext u
      simp only [Set.mem_ofPred_eq, and_congr_right_iff, hp]
      intro _
      split
      · exact ⟨fun h => okinj h, fun h => by rw [h]⟩
      · exact ⟨fun h => okinj h, fun h => by rw [h]⟩
    simp only [heq]
    have hm : MeasurableSet {u : ℝ | u < p} := measurableSet_Iio
    have hI : MeasurableSet (Set.Ico (0 : ℝ) 1) := measurableSet_Ico
    have hfin : ∀ b ∈ (Finset.univ : Finset (SpinConfig M N d)),
        volume {u : ℝ | u ∈ Set.Ico (0 : ℝ) 1 ∧ (if u < p then c1 else c) = b} ≠ ⊤ := by
      intro b _
      refine ((measure_mono (show _ ⊆ Set.Ico (0 : ℝ) 1 from fun u hu => hu.1)).trans_lt ?_).ne
      rw [Real.volume_Ico]
      exact ENNReal.ofReal_lt_top
    rw [← measureReal_biUnion_finset (h := hfin)]
    · have : (⋃ b ∈ (Finset.univ : Finset (SpinConfig M N d)),
          {u : ℝ | u ∈ Set.Ico (0 : ℝ) 1 ∧ (if u < p then c1 else c) = b}) = Set.Ico 0 1 := by
        ext u
        simp
      rw [this, Real.volume_real_Ico]
      norm_num
    · intro a _ b _ hab
      refine Set.disjoint_left.2 ?_
      rintro u ⟨-, h1⟩ ⟨-, h2⟩
      exact hab (h1.symm.trans h2)
    · intro b _
      show MeasurableSet (Set.Ico (0 : ℝ) 1 ∩ {u : ℝ | (if u < p then c1 else c) = b})
      refine hI.inter ?_
      have : {u : ℝ | (if u < p then c1 else c) = b} =
          ({u : ℝ | u < p} ∩ {_u | c1 = b}) ∪ ({u : ℝ | u < p}ᶜ ∩ {_u | c = b}) := by
        ext u
        by_cases hu : u < p <;> simp [hu]
      rw [this]
      exact (hm.inter (MeasurableSet.const _)).union (hm.compl.inter (MeasurableSet.const _))

end

end TAT
