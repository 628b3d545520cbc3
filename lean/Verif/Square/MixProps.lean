import Verif.Square.MixClass
import Verif.Square.MarkovProps

/-!
# C75: where the means of the Markov chain tend to

`chainProb` (C57) is the probability that a sequence of terms leads from one configuration to another.  A step of
`markov` and of `equilibrate` is a sweep: all terms in order, then backwards.
-/

namespace TAT

open Finset Filter

variable {K : Type} [Field K] [DecidableEq K]

/-- The probability that one step, all terms and then all terms backwards, leads from one configuration to another. -/
noncomputable def sweepProb (ops : ScalarOps K ℝ) {M N d : ℕ} (w : SpinConfig M N d → K)
    (hop : List (ElementTable K × List (ℤ × ℤ))) (c c' : SpinConfig M N d) : ℝ :=
  chainProb ops w (hop ++ hop.reverse) c c'

/-- The terms of the sampling: operators on a site or two neighbours, an element is zero if and only if the transposed
one is, and no row is zero. -/
def HopsOk (M N d : ℕ) (hop : List (ElementTable K × List (ℤ × ℤ))) : Prop :=
  ∀ e ∈ hop, ∃ value xs, HoppingTerm M N d value e.1 e.2 xs ∧ Supported xs ∧
    ∀ a, Spins d e.2.length a → ∃ b, Spins d e.2.length b ∧ value (a ++ b) ≠ 0

section

variable {ops : ScalarOps K ℝ} {M N d : ℕ} {w : SpinConfig M N d → K}

theorem markovProb_nonneg (t : ElementTable K) (ps : List (ℤ × ℤ)) (c c' : SpinConfig M N d) :
    0 ≤ markovProb ops w t ps c c' :=
  div_nonneg (sum_nonneg fun _ _ => MeasureTheory.measureReal_nonneg) (Nat.cast_nonneg _)

theorem chainProb_nonneg (l : List (ElementTable K × List (ℤ × ℤ))) (c c' : SpinConfig M N d) :
    0 ≤ chainProb ops w l c c' := by
  induction l generalizing c with
  | nil => rw [chainProb]; split <;> norm_num
  | cons e l ih => exact sum_nonneg fun c1 _ => mul_nonneg (markovProb_nonneg _ _ _ _) (ih _)

theorem chainProb_sum (laws : NormLaws ops) (hd : 0 < d) {l : List (ElementTable K × List (ℤ × ℤ))}
    (hl : HopsOk M N d l) (c : SpinConfig M N d) (hc : w c ≠ 0) : ∑ c', chainProb ops w l c c' = 1 := by
  induction l generalizing c with
  | nil => simp [chainProb]
  | cons e l ih =>
    obtain ⟨value, xs, h, hs, hr⟩ := hl e (by simp)
    simp only [chainProb]
    rw [sum_comm]
    simp only [← mul_sum]
    rw [← C57_stochastic ops hd w h hs c hc (hr _ (sitesAt_length h.sites ▸ spinsAt_spins c xs))]
    refine sum_congr rfl fun c1 _ => ?_
    by_cases h1 : w c1 = 0
    · rw [C57_never_zero laws hd w h c c1 hc h1, zero_mul]
    · rw [ih (fun e' he' => hl e' (by simp [he'])) c1 h1, mul_one]

theorem HopsOk.terms {l : List (ElementTable K × List (ℤ × ℤ))} (hl : HopsOk M N d l) :
    ∀ e ∈ l, ∃ value xs, HoppingTerm M N d value e.1 e.2 xs := fun e he => by
  obtain ⟨value, xs, h, -⟩ := hl e he
  exact ⟨value, xs, h⟩

theorem HopsOk.sweep {l : List (ElementTable K × List (ℤ × ℤ))} (hl : HopsOk M N d l) :
    HopsOk M N d (l ++ l.reverse) := fun e he => by
  rw [List.mem_append, List.mem_reverse, or_self] at he
  exact hl e he

omit [DecidableEq K] in
theorem NormLaws.pos (laws : NormLaws ops) {x : K} : 0 < ops.normSq x ↔ x ≠ 0 :=
  ⟨fun h e => h.ne' ((laws.normSq_eq_zero _).2 e), fun h =>
    lt_of_le_of_ne (laws.normSq_nonneg _) fun e => h ((laws.normSq_eq_zero _).1 e.symm)⟩

/-- What a chain of terms leads to leads back by the terms in the opposite order. -/
theorem chainProb_back (laws : NormLaws ops) (hd : 0 < d) {l : List (ElementTable K × List (ℤ × ℤ))}
    (hl : HopsOk M N d l) {c c' : SpinConfig M N d} (hc : w c ≠ 0) (h : 0 < chainProb ops w l c c') :
    w c' ≠ 0 ∧ 0 < chainProb ops w l.reverse c' c := by
  have e := C57_chain_reversed laws hd w l hl.terms c c'
  have p : 0 < ops.normSq (w c') * chainProb ops w l.reverse c' c := e ▸ mul_pos (laws.pos.2 hc) h
  have hc' : w c' ≠ 0 := by
    rintro h0
    rw [(laws.normSq_eq_zero _).2 h0, zero_mul] at p
    exact lt_irrefl _ p
  exact ⟨hc', pos_of_mul_pos_right p (laws.normSq_nonneg _)⟩

/-- If the terms lead from two configurations to the same one, a sweep leads from one to the other. -/
theorem sweepProb_meet (laws : NormLaws ops) (hd : 0 < d) {l : List (ElementTable K × List (ℤ × ℤ))}
    (hl : HopsOk M N d l) {c c' z : SpinConfig M N d} (hc' : w c' ≠ 0) (h : 0 < chainProb ops w l c z)
    (h' : 0 < chainProb ops w l c' z) : 0 < sweepProb ops w l c c' := by
  rw [sweepProb, chainProb_append]
  exact lt_of_lt_of_le (mul_pos h (chainProb_back laws hd hl hc' h').2)
    (single_le_sum (f := fun z => chainProb ops w l c z * chainProb ops w l.reverse z c')
      (fun z _ => mul_nonneg (chainProb_nonneg _ _ _) (chainProb_nonneg _ _ _)) (mem_univ z))

theorem chainProb_somewhere (laws : NormLaws ops) (hd : 0 < d) {l : List (ElementTable K × List (ℤ × ℤ))}
    (hl : HopsOk M N d l) {c : SpinConfig M N d} (hc : w c ≠ 0) : ∃ z, 0 < chainProb ops w l c z := by
  by_contra hn
  push Not at hn
  have := chainProb_sum laws hd hl c hc
  rw [sum_eq_zero fun z _ => le_antisymm (hn z) (chainProb_nonneg _ _ _)] at this
  norm_num at this

theorem sweep_reversible (laws : NormLaws ops) (hd : 0 < d) {hop : List (ElementTable K × List (ℤ × ℤ))}
    (hl : HopsOk M N d hop) : Reversible (sweepProb ops w hop) fun c => ops.normSq (w c) where
  nonneg c c' := chainProb_nonneg _ _ _
  weight c := laws.normSq_nonneg _
  balance c c' := C57_sweep_reversible laws hd w hop hl.terms c c'
  sum c hc := chainProb_sum laws hd hl.sweep c (laws.pos.1 hc)
  stay c hc := by
    obtain ⟨z, hz⟩ := chainProb_somewhere laws hd hl (laws.pos.1 hc)
    exact sweepProb_meet laws hd hl (laws.pos.1 hc) hz hz

open Classical in
/-- **C75.**  After many steps the probability of a configuration tends to the square of its amplitude, normalised over
the configurations which can be reached; the others have probability zero. -/
theorem C75_limit (laws : NormLaws ops) (hd : 0 < d) {hop : List (ElementTable K × List (ℤ × ℤ))}
    (hl : HopsOk M N d hop) {c : SpinConfig M N d} (hc : w c ≠ 0) (c' : SpinConfig M N d) :
    Tendsto (fun n => iterProb (sweepProb ops w hop) n c c') atTop
      (nhds (if Leads (sweepProb ops w hop) c c' then
        ops.normSq (w c') / ∑ c'', (if Leads (sweepProb ops w hop) c c'' then ops.normSq (w c'') else 0) else 0)) :=
  (sweep_reversible laws hd hl).limit (laws.pos.2 hc) c'

open Classical in
/-- **C75.**  The mean of a function over `n` steps deviates from its mean over the squares of the amplitudes of the
configurations which can be reached; the mean of the square of the deviation is at most `B / n`. -/
theorem C75_mean (laws : NormLaws ops) (hd : 0 < d) {hop : List (ElementTable K × List (ℤ × ℤ))}
    (hl : HopsOk M N d hop) {c : SpinConfig M N d} (hc : w c ≠ 0) (f : SpinConfig M N d → ℝ) :
    ∃ B, ∀ n, 0 < n → chainMean (sweepProb ops w hop) n (fun cs => (meanOver cs f -
      (∑ c', if Leads (sweepProb ops w hop) c c' then ops.normSq (w c') * f c' else 0) /
        ∑ c', if Leads (sweepProb ops w hop) c c' then ops.normSq (w c') else 0) ^ 2) c ≤ B / n :=
  (sweep_reversible laws hd hl).deviation (laws.pos.2 hc) f

/-! ## Which configurations can be reached -/

/-- A hopping of one of the terms leads from one configuration to the other: they agree outside of the sites of the term
and its element is not zero. -/
def Hops (M N d : ℕ) (hop : List (ElementTable K × List (ℤ × ℤ))) (c c' : SpinConfig M N d) : Prop :=
  ∃ e ∈ hop, ∃ value xs, HoppingTerm M N d value e.1 e.2 xs ∧ (∀ x, x ∉ xs → c x = c' x) ∧
    value ((xs.map fun x => (c x).val) ++ xs.map fun x => (c' x).val) ≠ 0

/-- No hopping joins two configurations whose amplitudes are the same in square, divided by the numbers of hoppings. -/
def Uneven (ops : ScalarOps K ℝ) (w : SpinConfig M N d → K) (hop : List (ElementTable K × List (ℤ × ℤ))) : Prop :=
  ∀ e ∈ hop, ∀ value xs, HoppingTerm M N d value e.1 e.2 xs → ∀ c c' : SpinConfig M N d, c ≠ c' → w c ≠ 0 → w c' ≠ 0 →
    (∀ x, x ∉ xs → c x = c' x) → value ((xs.map fun x => (c x).val) ++ xs.map fun x => (c' x).val) ≠ 0 →
    ops.normSq (w c) * rowLength e.1 (spinsAt c' xs) ≠ ops.normSq (w c') * rowLength e.1 (spinsAt c xs)

theorem rowLength_pos {value : List ℕ → K} {body : ℕ} {t : ElementTable K} (ht : HoppingTable d body value t)
    {a b : List ℕ} (h : Element d body value a b) (hne : a ≠ b) : 0 < rowLength t a := by
  obtain ⟨row, hrow⟩ := Option.ne_none_iff_exists'.1 (ht.2.2 _ _ h)
  rw [rowLength, hrow]
  exact List.length_pos_of_mem ((hopping_mem ht hrow (b, value (a ++ b))).2 ⟨⟨h, hne⟩, rfl⟩)

/-- A hopping has a positive probability. -/
theorem hop_pos (laws : NormLaws ops) (hd : 0 < d) {e : ElementTable K × List (ℤ × ℤ)} {value : List ℕ → K}
    {xs : List (LatticeSite M N)} (h : HoppingTerm M N d value e.1 e.2 xs) (hs : Supported xs) {c c' : SpinConfig M N d}
    (hne : c ≠ c') (hc : w c ≠ 0) (hc' : w c' ≠ 0) (ha : Agrees xs c c')
    (hv : value (spinsAt c xs ++ spinsAt c' xs) ≠ 0) : 0 < markovProb ops w e.1 e.2 c c' := by
  classical
  obtain ⟨ht, sym⟩ := h.spec hd
  have hel : Element d e.2.length value (spinsAt c xs) (spinsAt c' xs) :=
    ⟨sitesAt_length h.sites ▸ spinsAt_spins c xs, sitesAt_length h.sites ▸ spinsAt_spins c' xs, hv⟩
  have hsp : spinsAt c xs ≠ spinsAt c' xs := fun e => hne (agrees_ext (fun _ _ => rfl) ha e)
  have n1 : (0 : ℝ) < rowLength e.1 (spinsAt c xs) := by exact_mod_cast rowLength_pos ht hel hsp
  have n2 : (0 : ℝ) < rowLength e.1 (spinsAt c' xs) := by exact_mod_cast rowLength_pos ht (sym _ _ hel) hsp.symm
  rw [markovProb_off laws w ht sym h.sites rfl h.nodup c c' hne, if_pos ⟨ha, hel, hs.replaceable ha, hc⟩]
  have : 0 < ops.normSq (w c' / w c) := laws.pos.2 (div_ne_zero hc' hc)
  exact div_pos (lt_min (div_pos (mul_pos this n1) n2) one_pos) n1

/-- A configuration is kept with positive probability if a hopping leads to a smaller weight. -/
theorem stay_pos (laws : NormLaws ops) (hd : 0 < d) {e : ElementTable K × List (ℤ × ℤ)} {value : List ℕ → K}
    {xs : List (LatticeSite M N)} (h : HoppingTerm M N d value e.1 e.2 xs) (hs : Supported xs)
    {c c' : SpinConfig M N d} (hne : c ≠ c') (hc : w c ≠ 0) (ha : Agrees xs c c') (hv : value (spinsAt c xs ++ spinsAt c' xs) ≠ 0)
    (hlt : ops.normSq (w c') * rowLength e.1 (spinsAt c xs) < ops.normSq (w c) * rowLength e.1 (spinsAt c' xs)) :
    0 < markovProb ops w e.1 e.2 c c := by
  classical
  obtain ⟨ht, sym⟩ := h.spec hd
  have hel : Element d e.2.length value (spinsAt c xs) (spinsAt c' xs) :=
    ⟨sitesAt_length h.sites ▸ spinsAt_spins c xs, sitesAt_length h.sites ▸ spinsAt_spins c' xs, hv⟩
  have hsp : spinsAt c xs ≠ spinsAt c' xs := fun e => hne (agrees_ext (fun _ _ => rfl) ha e)
  have n1' := rowLength_pos ht hel hsp
  have n2 : (0 : ℝ) < rowLength e.1 (spinsAt c' xs) := by exact_mod_cast rowLength_pos ht (sym _ _ hel) hsp.symm
  obtain ⟨row, hrow⟩ := Option.ne_none_iff_exists'.1 (ht.2.2 _ _ hel)
  have hrl : rowLength e.1 (spinsAt c xs) = row.length := by rw [rowLength, hrow]; rfl
  have hmem := (hopping_mem ht hrow (spinsAt c' xs, value (spinsAt c xs ++ spinsAt c' xs))).2 ⟨⟨hel, hsp⟩, rfl⟩
  obtain ⟨r, hr0, er⟩ := List.getElem_of_mem hmem
  have hcount : indexCount e.1 e.2 c = row.length := by
    rw [indexCount, h.sites]
    show max 1 (rowLength e.1 (spinsAt c xs)) = _
    rw [hrl, max_eq_right (by omega)]
  obtain ⟨q, hq⟩ : ∃ q, q = ops.normSq (w c' / w c) * row.length / rowLength e.1 (spinsAt c' xs) := ⟨_, rfl⟩
  have hq0 : 0 ≤ q := by
    rw [hq]
    have := laws.normSq_nonneg (w c' / w c)
    positivity
  have hq1 : q < 1 := by
    rw [hq, laws.normSq_div, div_lt_one n2, div_mul_eq_mul_div, div_lt_iff₀ (laws.pos.2 hc), ← hrl, mul_comm (_ : ℝ)]
    rw [mul_comm (ops.normSq (w c))] at hlt
    linarith
  rw [markovProb, hcount]
  have hpos : (0 : ℝ) < row.length := by exact_mod_cast (by omega : 0 < row.length)
  refine div_pos (lt_of_lt_of_le ?_ (single_le_sum (fun _ _ => MeasureTheory.measureReal_nonneg)
    (mem_range.2 hr0))) hpos
  have hsub : Set.Ico q 1 ⊆ {u : ℝ | u ∈ Set.Ico (0 : ℝ) 1 ∧ markovTerm ops w e.1 e.2 (c, w c) r u = .ok (c, w c)} := by
    rintro u ⟨h1, h2⟩
    refine ⟨⟨hq0.trans h1, h2⟩, ?_⟩
    obtain ⟨c'', e1, e2, -, e4⟩ := markovTerm_eq (ops := ops) w ht sym h.sites rfl h.nodup c hrow r hr0 u
    rw [er] at e2
    obtain rfl : c'' = c' := agrees_ext e1 ha e2
    rw [e4, if_pos (hs.replaceable e1), if_neg hc, if_neg]
    rw [← hq]
    exact not_lt.2 h1
  refine lt_of_lt_of_le ?_ (MeasureTheory.measureReal_mono hsub ?_)
  · rw [Real.volume_real_Ico]
    exact lt_max_of_lt_left (by linarith)
  · refine ((MeasureTheory.measure_mono (show _ ⊆ Set.Ico (0 : ℝ) 1 from fun u hu => hu.1)).trans_lt ?_).ne
    rw [Real.volume_Ico]
    exact ENNReal.ofReal_lt_top

/-- The terms lead from two configurations to the same one. -/
def Meet (ops : ScalarOps K ℝ) (w : SpinConfig M N d → K) (l : List (ElementTable K × List (ℤ × ℤ)))
    (c c' : SpinConfig M N d) : Prop :=
  w c ≠ 0 ∧ w c' ≠ 0 ∧ ∃ z, 0 < chainProb ops w l c z ∧ 0 < chainProb ops w l c' z

theorem Meet.symm {l : List (ElementTable K × List (ℤ × ℤ))} {c c' : SpinConfig M N d} (h : Meet ops w l c c') :
    Meet ops w l c' c := by
  obtain ⟨h1, h2, z, h3, h4⟩ := h
  exact ⟨h2, h1, z, h4, h3⟩

theorem chainProb_cons_pos {e : ElementTable K × List (ℤ × ℤ)} {l : List (ElementTable K × List (ℤ × ℤ))}
    {c c1 z : SpinConfig M N d} (h1 : 0 < markovProb ops w e.1 e.2 c c1) (h2 : 0 < chainProb ops w l c1 z) :
    0 < chainProb ops w (e :: l) c z :=
  lt_of_lt_of_le (mul_pos h1 h2)
    (single_le_sum (f := fun c1 => markovProb ops w e.1 e.2 c c1 * chainProb ops w l c1 z)
      (fun _ _ => mul_nonneg (markovProb_nonneg _ _ _ _) (chainProb_nonneg _ _ _)) (mem_univ c1))

theorem markovProb_back (laws : NormLaws ops) (hd : 0 < d) {e : ElementTable K × List (ℤ × ℤ)} {value : List ℕ → K}
    {xs : List (LatticeSite M N)} (h : HoppingTerm M N d value e.1 e.2 xs) {c c' : SpinConfig M N d} (hc : w c ≠ 0)
    (hp : 0 < markovProb ops w e.1 e.2 c c') : w c' ≠ 0 ∧ 0 < markovProb ops w e.1 e.2 c' c := by
  have hc' : w c' ≠ 0 := fun h0 => hp.ne' (C57_never_zero laws hd w h c c' hc h0)
  have e' := C57_detailed_balance laws hd w h c c'
  exact ⟨hc', pos_of_mul_pos_right (e' ▸ mul_pos (laws.pos.2 hc) hp) (laws.normSq_nonneg _)⟩

theorem meet_of_hop (laws : NormLaws ops) (hd : 0 < d) {l : List (ElementTable K × List (ℤ × ℤ))}
    (hl : HopsOk M N d l)
    (hm : ∀ e ∈ l, ∀ c c' : SpinConfig M N d, w c ≠ 0 → 0 < markovProb ops w e.1 e.2 c c' →
      0 < markovProb ops w e.1 e.2 c c ∨ 0 < markovProb ops w e.1 e.2 c' c')
    {e : ElementTable K × List (ℤ × ℤ)} (he : e ∈ l) {c c' : SpinConfig M N d} (hc : w c ≠ 0)
    (h : 0 < markovProb ops w e.1 e.2 c c') : Relation.ReflTransGen (Meet ops w l) c c' := by
  induction l generalizing c c' e with
  | nil => simp at he
  | cons f l ih =>
    have hl' : HopsOk M N d l := fun e' he' => hl e' (by simp [he'])
    have first : ∀ c c' : SpinConfig M N d, w c ≠ 0 → 0 < markovProb ops w f.1 f.2 c c' →
        Relation.ReflTransGen (Meet ops w (f :: l)) c c' := by
      intro c c' hc h
      obtain ⟨value, xs, hf, -⟩ := hl f (by simp)
      obtain ⟨hc', hb⟩ := markovProb_back laws hd hf hc h
      rcases hm f (by simp) c c' hc h with hstay | hstay
      · obtain ⟨z, hz⟩ := chainProb_somewhere laws hd hl' hc
        exact .single ⟨hc, hc', z, chainProb_cons_pos hstay hz, chainProb_cons_pos hb hz⟩
      · obtain ⟨z, hz⟩ := chainProb_somewhere laws hd hl' hc'
        exact .single ⟨hc, hc', z, chainProb_cons_pos h hz, chainProb_cons_pos hstay hz⟩
    rcases List.mem_cons.1 he with rfl | he'
    · exact first c c' hc h
    · have hchain := ih hl' (fun e he => hm e (by simp [he])) he' hc h
      obtain ⟨value, xs, hf, hs, hr⟩ := hl f (by simp)
      have before : ∀ x : SpinConfig M N d, w x ≠ 0 → ∃ y, w y ≠ 0 ∧ 0 < markovProb ops w f.1 f.2 y x ∧
          Relation.ReflTransGen (Meet ops w (f :: l)) x y ∧ Relation.ReflTransGen (Meet ops w (f :: l)) y x := by
        intro x hx
        obtain ⟨y, hy⟩ : ∃ y, 0 < markovProb ops w f.1 f.2 x y := by
          by_contra hn
          push Not at hn
          have := C57_stochastic ops hd w hf hs x hx (hr _ (sitesAt_length hf.sites ▸ spinsAt_spins x xs))
          rw [sum_eq_zero fun z _ => le_antisymm (hn z) (markovProb_nonneg _ _ _ _)] at this
          norm_num at this
        obtain ⟨hy0, hb⟩ := markovProb_back laws hd hf hx hy
        exact ⟨y, hy0, hb, first x y hx hy, first y x hy0 hb⟩
      have step : ∀ x y, Meet ops w l x y → Relation.ReflTransGen (Meet ops w (f :: l)) x y := by
        rintro x y ⟨hx, hy, z, h1, h2⟩
        obtain ⟨x', hx', px, rx, -⟩ := before x hx
        obtain ⟨y', hy', py, -, ry⟩ := before y hy
        exact rx.trans ((Relation.ReflTransGen.single
          ⟨hx', hy', z, chainProb_cons_pos px h1, chainProb_cons_pos py h2⟩).trans ry)
      clear h he
      induction hchain with
      | refl => exact .refl
      | tail _ hb ih' => exact ih'.trans (step _ _ hb)

theorem hops_of_markovProb (laws : NormLaws ops) (hd : 0 < d) {e : ElementTable K × List (ℤ × ℤ)} {value : List ℕ → K}
    {xs : List (LatticeSite M N)} (h : HoppingTerm M N d value e.1 e.2 xs) {c c' : SpinConfig M N d}
    (hne : c ≠ c') (hp : 0 < markovProb ops w e.1 e.2 c c') :
    Agrees xs c c' ∧ value (spinsAt c xs ++ spinsAt c' xs) ≠ 0 := by
  classical
  obtain ⟨ht, sym⟩ := h.spec hd
  rw [markovProb_off laws w ht sym h.sites rfl h.nodup c c' hne] at hp
  split at hp
  · rename_i hg
    exact ⟨hg.1, hg.2.1.2.2⟩
  · exact absurd hp (lt_irrefl _)

/-- **C75.**  If no hopping joins configurations of the same weight, then exactly the configurations which are joined by
hoppings, through configurations whose amplitude is not zero, can be reached. -/
theorem C75_reached (laws : NormLaws ops) (hd : 0 < d) {hop : List (ElementTable K × List (ℤ × ℤ))}
    (hl : HopsOk M N d hop) (hu : Uneven ops w hop) {c c' : SpinConfig M N d} (hc : w c ≠ 0) :
    Leads (sweepProb ops w hop) c c' ↔ Relation.ReflTransGen (fun a b => w b ≠ 0 ∧ Hops M N d hop a b) c c' := by
  have rev := sweep_reversible (w := w) laws hd hl
  constructor
  · have chain : ∀ l : List (ElementTable K × List (ℤ × ℤ)), (∀ e ∈ l, e ∈ hop) → ∀ a b : SpinConfig M N d, w a ≠ 0 →
        0 < chainProb ops w l a b → w b ≠ 0 ∧
        Relation.ReflTransGen (fun a b => w b ≠ 0 ∧ Hops M N d hop a b) a b := by
      intro l
      induction l with
      | nil =>
        intro _ a b ha h
        rw [chainProb] at h
        split at h
        · rename_i e
          subst e
          exact ⟨ha, .refl⟩
        · exact absurd h (lt_irrefl _)
      | cons e l ih =>
        intro hmem a b ha h
        obtain ⟨z, -, hz⟩ := exists_ne_zero_of_sum_ne_zero (ne_of_gt h)
        have p1 : 0 < markovProb ops w e.1 e.2 a z :=
          lt_of_le_of_ne (markovProb_nonneg _ _ _ _) (Ne.symm (left_ne_zero_of_mul hz))
        have p2 : 0 < chainProb ops w l z b :=
          lt_of_le_of_ne (chainProb_nonneg _ _ _) (Ne.symm (right_ne_zero_of_mul hz))
        obtain ⟨value, xs, he, -⟩ := hl e (hmem e (by simp))
        have hz0 := (markovProb_back laws hd he ha p1).1
        obtain ⟨hb, r⟩ := ih (fun e' he' => hmem e' (by simp [he'])) z b hz0 p2
        refine ⟨hb, ?_⟩
        by_cases hne : a = z
        · rwa [hne]
        · obtain ⟨h1, h2⟩ := hops_of_markovProb laws hd he hne p1
          exact .head ⟨hz0, e, hmem e (by simp), value, xs, he, h1, h2⟩ r
    rintro ⟨n, hn⟩
    induction n generalizing c with
    | zero =>
      rw [iterProb] at hn
      split at hn
      · rename_i e
        rw [e]
      · exact absurd hn (lt_irrefl _)
    | succ n ih =>
      obtain ⟨z, -, hz⟩ := exists_ne_zero_of_sum_ne_zero (ne_of_gt hn)
      have p1 : 0 < sweepProb ops w hop c z := lt_of_le_of_ne (rev.nonneg _ _) (Ne.symm (left_ne_zero_of_mul hz))
      have p2 : 0 < iterProb (sweepProb ops w hop) n z c' :=
        lt_of_le_of_ne (iterProb_nonneg rev.nonneg _ _ _) (Ne.symm (right_ne_zero_of_mul hz))
      obtain ⟨hz0, r⟩ := chain _ (fun e he => by
        rwa [List.mem_append, List.mem_reverse, or_self] at he) c z hc p1
      exact r.trans (ih hz0 p2)
  · have hm : ∀ e ∈ hop, ∀ c c' : SpinConfig M N d, w c ≠ 0 → 0 < markovProb ops w e.1 e.2 c c' →
        0 < markovProb ops w e.1 e.2 c c ∨ 0 < markovProb ops w e.1 e.2 c' c' := by
      intro e he c c' hc hp
      obtain ⟨value, xs, ht, hs, -⟩ := hl e he
      by_cases hne : c = c'
      · rw [← hne] at hp
        exact Or.inl hp
      obtain ⟨hc', hb⟩ := markovProb_back laws hd ht hc hp
      obtain ⟨h1, h2⟩ := hops_of_markovProb laws hd ht hne hp
      obtain ⟨h1', h2'⟩ := hops_of_markovProb laws hd ht (Ne.symm hne) hb
      rcases lt_or_gt_of_ne (hu e he value xs ht c c' hne hc hc' h1 h2) with hlt | hlt
      · exact Or.inr (stay_pos laws hd ht hs (Ne.symm hne) hc' h1' h2' hlt)
      · exact Or.inl (stay_pos laws hd ht hs hne hc h1 h2 hlt)
    intro h
    have hboth : w c' ≠ 0 ∧ Leads (sweepProb ops w hop) c c' := by
      induction h with
      | refl => exact ⟨hc, leads_self c⟩
      | @tail a b _ hab ih =>
        obtain ⟨ha, hr⟩ := ih
        obtain ⟨hb, e, he, value, xs, ht, h1, h2⟩ := hab
        refine ⟨hb, ?_⟩
        by_cases hne : a = b
        · rwa [← hne]
        obtain ⟨value', xs', ht', hs', -⟩ := hl e he
        obtain rfl : xs = xs' := Outcome.ok.inj (ht.sites.symm.trans ht'.sites)
        have hchain := meet_of_hop laws hd hl hm he ha (hop_pos laws hd ht hs' hne ha hb h1 h2)
        have hmeet : ∀ x y, Meet ops w hop x y → Leads (sweepProb ops w hop) x y := by
          rintro x y ⟨hx, hy, z, h1, h2⟩
          exact ⟨1, by rw [iterProb_one]; exact sweepProb_meet laws hd hl hy h1 h2⟩
        refine rev.leads_trans hr ?_
        clear hne h1 h2 hr hb
        induction hchain with
        | refl => exact leads_self a
        | tail _ hb' ih' => exact rev.leads_trans ih' (hmeet _ _ hb')
    exact hboth.2

/-! ## Expectation values -/

/-- The matrix element of an observable between two configurations. -/
def observableElement (o : Observable M N K) (c c' : SpinConfig M N d) : K :=
  if ∀ x, x ∉ o.sites → c x = c' x then
    o.value ((o.sites.map fun x => (c x).val) ++ o.sites.map fun x => (c' x).val)
  else 0

/-- `Re ⟨ψ|O|ψ⟩ / ⟨ψ|ψ⟩`, where `⟨c|ψ⟩ = w c`. -/
noncomputable def expectation (ops : ScalarOps K ℝ) (conj : K → K) (w : SpinConfig M N d → K) (o : Observable M N K) : ℝ :=
  ops.re (∑ c, ∑ c', conj (w c) * observableElement o c c' * w c') / ∑ c, ops.normSq (w c)

omit [DecidableEq K] in
theorem re_sum {conj : K → K} (slaws : ScalarLaws ops conj) {ι : Type} (s : Finset ι) (f : ι → K) :
    ops.re (∑ i ∈ s, f i) = ∑ i ∈ s, ops.re (f i) := by
  classical
  induction s using Finset.induction_on with
  | empty => simpa using slaws.re_zero
  | insert a s ha ih => rw [sum_insert ha, sum_insert ha, slaws.re_add, ih]

omit [DecidableEq K] in
theorem localValue_weight {conj : K →+* K} (slaws : ScalarLaws ops conj) (o : Observable M N K) (c : SpinConfig M N d)
    (hc : w c ≠ 0) :
    ops.normSq (w c) * ops.re (localValue w o c) = ops.re (∑ c', conj (w c) * observableElement o c c' * w c') := by
  have e : localValue w o c = (∑ c', observableElement o c c' * w c') / w c := by
    rw [localValue, sum_div]
    refine sum_congr rfl fun c' _ => ?_
    rw [observableElement]
    split
    · rfl
    · rw [zero_mul, zero_div]
  rw [e, mul_comm, slaws.re_div _ _ hc, mul_sum]
  simp only [mul_assoc]

/-- **C75.**  If every configuration whose amplitude is not zero can be reached, then the means of the local values of an
observable over the steps tend to its expectation value, in the mean of the square and at least like `1 / n`. -/
theorem C75_estimate_reached (laws : NormLaws ops) {conj : K →+* K} (slaws : ScalarLaws ops conj) (hd : 0 < d)
    {hop : List (ElementTable K × List (ℤ × ℤ))} (hl : HopsOk M N d hop) {c : SpinConfig M N d} (hc : w c ≠ 0)
    (hr : ∀ c', w c' ≠ 0 → Leads (sweepProb ops w hop) c c') (o : Observable M N K) :
    ∃ B, ∀ n, 0 < n → chainMean (sweepProb ops w hop) n (fun cs =>
      (meanOver cs (fun c' => ops.re (localValue w o c')) - expectation ops conj w o) ^ 2) c ≤ B / n := by
  classical
  obtain ⟨B, hB⟩ := C75_mean laws hd hl hc fun c' => ops.re (localValue w o c')
  have e1 : (∑ c', if Leads (sweepProb ops w hop) c c' then ops.normSq (w c') else 0) = ∑ c, ops.normSq (w c) := by
    refine sum_congr rfl fun c' _ => ?_
    by_cases h : w c' = 0
    · rw [(laws.normSq_eq_zero _).2 h, ite_self]
    · rw [if_pos (hr c' h)]
  have e2 : (∑ c', if Leads (sweepProb ops w hop) c c' then ops.normSq (w c') * ops.re (localValue w o c') else 0) =
      ops.re (∑ c, ∑ c', conj (w c) * observableElement o c c' * w c') := by
    rw [re_sum slaws]
    refine sum_congr rfl fun c' _ => ?_
    by_cases h : w c' = 0
    · simp [h, slaws.normSq_zero, slaws.re_zero]
    · rw [if_pos (hr c' h), localValue_weight slaws o c' h]
  refine ⟨B, fun n hn => ?_⟩
  have := hB n hn
  rw [e1, e2] at this
  exact this

/-- **C75**, partial: the means over the steps tend to the expectation values.  Assumed, besides that hoppings join all
configurations whose amplitude is not zero: no hopping joins configurations of the same weight. -/
theorem C75_estimate_partial (laws : NormLaws ops) {conj : K →+* K} (slaws : ScalarLaws ops conj) (hd : 0 < d)
    {hop : List (ElementTable K × List (ℤ × ℤ))} (hl : HopsOk M N d hop) (hu : Uneven ops w hop)
    {c : SpinConfig M N d} (hc : w c ≠ 0)
    (hr : ∀ c', w c' ≠ 0 → Relation.ReflTransGen (fun a b => w b ≠ 0 ∧ Hops M N d hop a b) c c')
    (o : Observable M N K) :
    ∃ B, ∀ n, 0 < n → chainMean (sweepProb ops w hop) n (fun cs =>
      (meanOver cs (fun c' => ops.re (localValue w o c')) - expectation ops conj w o) ^ 2) c ≤ B / n :=
  C75_estimate_reached laws slaws hd hl hc (fun c' hc' => (C75_reached laws hd hl hu hc).2 (hr c' hc')) o

omit [DecidableEq K] in
theorem chainMean_mono {X : Type} [Fintype X] {P : X → X → ℝ} (hP : ∀ x y, 0 ≤ P x y) {F G : List X → ℝ}
    (h : ∀ l, F l ≤ G l) (n : ℕ) (x : X) : chainMean P n F x ≤ chainMean P n G x := by
  induction n generalizing F G x with
  | zero => exact h _
  | succ n ih => exact sum_le_sum fun y _ => mul_le_mul_of_nonneg_left (ih (fun l => h _) y) (hP x y)

/-- **C75**, partial: the same as a bound of the probability that the mean over `n` steps deviates from the expectation
value by `ε` or more. -/
theorem C75_probability_partial (laws : NormLaws ops) {conj : K →+* K} (slaws : ScalarLaws ops conj) (hd : 0 < d)
    {hop : List (ElementTable K × List (ℤ × ℤ))} (hl : HopsOk M N d hop) (hu : Uneven ops w hop)
    {c : SpinConfig M N d} (hc : w c ≠ 0)
    (hr : ∀ c', w c' ≠ 0 → Relation.ReflTransGen (fun a b => w b ≠ 0 ∧ Hops M N d hop a b) c c')
    (o : Observable M N K) :
    ∃ B, ∀ ε, 0 < ε → ∀ n, 0 < n → chainMean (sweepProb ops w hop) n (fun cs =>
      if ε ≤ |meanOver cs (fun c' => ops.re (localValue w o c')) - expectation ops conj w o| then 1 else 0) c ≤
        B / (n * ε ^ 2) := by
  obtain ⟨B, hB⟩ := C75_estimate_partial laws slaws hd hl hu hc hr o
  refine ⟨B, fun ε hε n hn => ?_⟩
  have hn' : (0 : ℝ) < n := by exact_mod_cast hn
  have h2 : 0 < ε ^ 2 := by positivity
  rw [le_div_iff₀ (mul_pos hn' h2), mul_comm (n : ℝ), ← mul_assoc, ← le_div_iff₀ hn', mul_comm, ← chainMean_smul]
  refine (chainMean_mono (fun _ _ => chainProb_nonneg _ _ _) (fun l => ?_) n c).trans (hB n hn)
  split
  · rename_i hle
    rw [mul_one, ← sq_abs (_ - _)]
    exact pow_le_pow_left₀ hε.le hle 2
  · rw [mul_zero]
    exact sq_nonneg _

/-! ## Steps which lead nowhere -/

/-- Whatever the random number is, the term leads from one configuration to the other. -/
def Always (ops : ScalarOps K ℝ) (w : SpinConfig M N d → K) (e : ElementTable K × List (ℤ × ℤ))
    (c c' : SpinConfig M N d) : Prop :=
  ∀ u : ℝ, u < 1 → markovTerm ops w e.1 e.2 (c, w c) 0 u = .ok (c', w c')

/-- The same for a sequence of terms. -/
inductive AlwaysRun (ops : ScalarOps K ℝ) (w : SpinConfig M N d → K) :
    List (ElementTable K × List (ℤ × ℤ)) → SpinConfig M N d → SpinConfig M N d → Prop
  | nil (c) : AlwaysRun ops w [] c c
  | cons {e l c c1 c'} : Always ops w e c c1 → AlwaysRun ops w l c1 c' → AlwaysRun ops w (e :: l) c c'

theorem AlwaysRun.append {l l' : List (ElementTable K × List (ℤ × ℤ))} {c c1 c' : SpinConfig M N d}
    (h : AlwaysRun ops w l c c1) (h' : AlwaysRun ops w l' c1 c') : AlwaysRun ops w (l ++ l') c c' := by
  induction h with
  | nil => exact h'
  | cons h1 _ ih => exact .cons h1 (ih h')

theorem AlwaysRun.fold {L : List ((ElementTable K × List (ℤ × ℤ)) × ℕ)} {c c' : SpinConfig M N d}
    (h : AlwaysRun ops w (L.map Prod.fst) c c') (random : ℕ → ℕ × ℝ) (hr : ∀ k, (random k).1 = 0 ∧ (random k).2 < 1) :
    L.foldlM (fun s t => markovTerm ops w t.1.1 t.1.2 s (random t.2).1 (random t.2).2) (c, w c) = .ok (c', w c') := by
  induction L generalizing c with
  | nil =>
    cases h
    rfl
  | cons t L ih =>
    rw [List.map_cons] at h
    cases h with
    | cons h1 h2 =>
      rw [List.foldlM_cons, (hr t.2).1, h1 _ (hr t.2).2]
      exact ih h2

theorem always_hop (laws : NormLaws ops) (hd : 0 < d) {hop : List (ElementTable K × List (ℤ × ℤ))}
    (hl : HopsOk M N d hop) (hone : ∀ e ∈ hop, ∀ a, rowLength e.1 a ≤ 1)
    (heven : ∀ c c' : SpinConfig M N d, Hops M N d hop c c' → ops.normSq (w c) = ops.normSq (w c'))
    {e : ElementTable K × List (ℤ × ℤ)} (he : e ∈ hop) {c : SpinConfig M N d} (hc : w c ≠ 0) :
    ∃ c', w c' ≠ 0 ∧ Always ops w e c c' ∧ Always ops w e c' c := by
  obtain ⟨value, xs, h, hs, hr⟩ := hl e he
  obtain ⟨ht, sym⟩ := h.spec hd
  have hlen := sitesAt_length h.sites
  obtain ⟨b, hb1, hb2⟩ := hr _ (hlen ▸ spinsAt_spins c xs)
  obtain ⟨row, hrow⟩ := Option.ne_none_iff_exists'.1
    (ht.2.2 (spinsAt c xs) b ⟨hlen ▸ spinsAt_spins c xs, hb1, hb2⟩)
  by_cases hne : row = []
  · subst hne
    exact ⟨c, hc, fun u _ => markovTerm_empty w h.sites c hrow 0 u, fun u _ => markovTerm_empty w h.sites c hrow 0 u⟩
  · have hpos : 0 < row.length := List.length_pos_iff.2 hne
    have hrl : rowLength e.1 (spinsAt c xs) = row.length := by rw [rowLength, hrow]; rfl
    have hone1 : row.length = 1 := le_antisymm (hrl ▸ hone e he _) hpos
    obtain ⟨c', e1, e2, e3, -⟩ := markovTerm_eq (ops := ops) w ht sym h.sites rfl h.nodup c hrow 0 hpos 0
    have hone2 : rowLength e.1 (spinsAt c' xs) = 1 := le_antisymm (hone e he _) e3
    have hmem := (hopping_mem ht hrow _).1 (List.getElem_mem hpos)
    rw [← e2] at hmem
    obtain ⟨⟨hel, hnes⟩, -⟩ := hmem
    have hwe : ops.normSq (w c) = ops.normSq (w c') := heven c c' ⟨e, he, value, xs, h, e1, hel.2.2⟩
    have hc' : w c' ≠ 0 := laws.pos.1 (hwe ▸ laws.pos.2 hc)
    have q : ∀ {a b : SpinConfig M N d}, w b ≠ 0 → ops.normSq (w a) = ops.normSq (w b) →
        ops.normSq (w a / w b) * ((1 : ℕ) : ℝ) / ((1 : ℕ) : ℝ) = 1 := by
      intro a b hb hab
      rw [laws.normSq_div, hab, div_self (laws.pos.2 hb).ne']
      norm_num
    refine ⟨c', hc', fun u hu => ?_, fun u hu => ?_⟩
    · obtain ⟨c'', f1, f2, -, f4⟩ := markovTerm_eq (ops := ops) w ht sym h.sites rfl h.nodup c hrow 0 hpos u
      obtain rfl : c'' = c' := agrees_ext f1 e1 (f2.trans e2.symm)
      rw [f4, if_pos (hs.replaceable e1), if_neg hc, if_pos]
      rw [hone1, hone2, q hc hwe.symm]
      exact hu
    · have hel' := sym _ _ hel
      obtain ⟨row', hrow'⟩ := Option.ne_none_iff_exists'.1 (ht.2.2 _ _ hel')
      have hrl' : rowLength e.1 (spinsAt c' xs) = row'.length := by rw [rowLength, hrow']; rfl
      have hl1 : row'.length = 1 := hrl' ▸ hone2
      have hpos' : 0 < row'.length := by omega
      have hmem' := (hopping_mem ht hrow' (spinsAt c xs, value (spinsAt c' xs ++ spinsAt c xs))).2
        ⟨⟨hel', hnes.symm⟩, rfl⟩
      obtain ⟨r, hr0, er⟩ := List.getElem_of_mem hmem'
      obtain rfl : r = 0 := by omega
      obtain ⟨c'', f1, f2, -, f4⟩ := markovTerm_eq (ops := ops) w ht sym h.sites rfl h.nodup c' hrow' 0 hpos' u
      rw [er] at f2
      have e1' : Agrees xs c' c := fun x hx => (e1 x hx).symm
      obtain rfl : c'' = c := agrees_ext f1 e1' f2
      rw [f4, if_pos (hs.replaceable e1'), if_neg hc', if_pos]
      rw [hl1, hrl, hone1, q hc' hwe]
      exact hu

/-- **C75.**  If every row has at most one hopping, as for the exchange of two spins, and hoppings keep the absolute value
of the amplitude, then every step leads back to where it started, whatever the random numbers are: the second half of
the sweep undoes the first. -/
theorem C75_frozen (laws : NormLaws ops) (hd : 0 < d) {hop : List (ElementTable K × List (ℤ × ℤ))}
    (hl : HopsOk M N d hop) (hone : ∀ e ∈ hop, ∀ a, rowLength e.1 a ≤ 1)
    (heven : ∀ c c' : SpinConfig M N d, Hops M N d hop c c' → ops.normSq (w c) = ops.normSq (w c'))
    {c : SpinConfig M N d} (hc : w c ≠ 0) (random : ℕ → ℕ → ℕ × ℝ)
    (hr : ∀ k j, (random k j).1 = 0 ∧ (random k j).2 < 1) (k : ℕ) (cs : List (SpinConfig M N d)) :
    Visits ops w hop random c k cs ↔ ∀ c' ∈ cs, c' = c := by
  have run : ∀ l : List (ElementTable K × List (ℤ × ℤ)), (∀ e ∈ l, e ∈ hop) → ∀ c : SpinConfig M N d, w c ≠ 0 →
      ∃ c', AlwaysRun ops w l c c' ∧ AlwaysRun ops w l.reverse c' c := by
    intro l
    induction l with
    | nil => exact fun _ c _ => ⟨c, .nil c, .nil c⟩
    | cons e l ih =>
      intro hmem c hc
      obtain ⟨c1, hc1, h1, h2⟩ := always_hop laws hd hl hone heven (hmem e (by simp)) hc
      obtain ⟨c', h3, h4⟩ := ih (fun e' he' => hmem e' (by simp [he'])) c1 hc1
      refine ⟨c', .cons h1 h3, ?_⟩
      rw [List.reverse_cons]
      exact h4.append (.cons h2 (.nil c))
  have one : ∀ k, markovSweep ops w hop (c, w c) (random k) = .ok (c, w c) := by
    intro k
    obtain ⟨c', h1, h2⟩ := run hop (fun _ h => h) c hc
    refine AlwaysRun.fold ?_ (random k) (hr k)
    rw [List.zipIdx_map_fst]
    exact h1.append h2
  induction cs generalizing k with
  | nil => simp [Visits]
  | cons a cs ih =>
    rw [Visits, one k]
    constructor
    · rintro ⟨h1, h2⟩
      have e : c = a := congrArg Prod.fst (Outcome.ok.inj h1)
      subst e
      intro c' hc'
      rcases List.mem_cons.1 hc' with rfl | h
      · rfl
      · exact (ih (k + 1)).1 h2 c' h
    · intro h
      obtain rfl : a = c := h a (by simp)
      exact ⟨rfl, (ih (k + 1)).2 fun c' hc' => h c' (by simp [hc'])⟩

end

end TAT
