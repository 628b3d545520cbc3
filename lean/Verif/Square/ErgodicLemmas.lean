import Verif.Square.TableProps
import Mathlib.Algebra.BigOperators.Group.List.Basic
import Mathlib.Algebra.BigOperators.Group.Finset.Basic
import Mathlib.Algebra.BigOperators.Ring.Finset
import Mathlib.Data.Fintype.Pi
import Mathlib.Data.Fintype.Prod

/-!
# Lemmas about the observation of operators
-/

namespace TAT

variable {K R : Type}

/-! ## Sequences of outcomes -/

/-- A loop which ends normally did so in each round. -/
theorem foldlM_ok_sum {α : Type} [AddCommMonoid R] (f : R → α → Outcome R) (g : α → R)
    (l : List α) (hf : ∀ v, ∀ e ∈ l, ∀ v', f v e = .ok v' → v' = v + g e) (v0 v : R)
    (h : l.foldlM f v0 = .ok v) : v = v0 + (l.map g).sum := by
  induction l generalizing v0 with
  | nil =>
    have : v0 = v := Outcome.ok.inj h
    simp [this]
  | cons e l ih =>
    rw [List.foldlM_cons] at h
    cases he : f v0 e with
    | ok v1 =>
      rw [he] at h
      have := ih (fun v e' he' => hf v e' (by simp [he'])) v1 h
      rw [this, hf v0 e (by simp) v1 he, List.map_cons, List.sum_cons, add_assoc]
    | error m => rw [he] at h; cases h
    | ub => rw [he] at h; cases h

theorem foldlM_ok_of {α β : Type} (f : β → α → Outcome β) (l : List α)
    (hf : ∀ v, ∀ e ∈ l, ∃ v', f v e = .ok v') (v0 : β) : ∃ v, l.foldlM f v0 = .ok v := by
  induction l generalizing v0 with
  | nil => exact ⟨v0, rfl⟩
  | cons e l ih =>
    obtain ⟨v1, h1⟩ := hf v0 e (by simp)
    obtain ⟨v, hv⟩ := ih (fun v e' he' => hf v e' (by simp [he'])) v1
    exact ⟨v, by rw [List.foldlM_cons, h1]; exact hv⟩

theorem foldlM_ok_each {α β : Type} (f : β → α → Outcome β) (l : List α) (v0 v : β)
    (h : l.foldlM f v0 = .ok v) : ∀ e ∈ l, ∃ u u', f u e = .ok u' := by
  induction l generalizing v0 with
  | nil => simp
  | cons e l ih =>
    rw [List.foldlM_cons] at h
    cases he : f v0 e with
    | ok v1 =>
      rw [he] at h
      intro e' he'
      rcases List.mem_cons.1 he' with rfl | he'
      · exact ⟨v0, v1, he⟩
      · exact ih v1 h e' he'
    | error m => rw [he] at h; cases h
    | ub => rw [he] at h; cases h

theorem bind_ok {α β : Type} {x : Outcome α} {f : α → Outcome β} {b : β} (h : x.bind f = .ok b) :
    ∃ a, x = .ok a ∧ f a = .ok b := by
  cases x with
  | ok a => exact ⟨a, rfl, h⟩
  | error m => cases h
  | ub => cases h

/-! ## Spins at sites -/

/-- The configuration with the spins of another one at some sites. -/
def Agrees {M N d : ℕ} (xs : List (LatticeSite M N)) (c c' : SpinConfig M N d) : Prop :=
  ∀ x, x ∉ xs → c x = c' x

theorem spinsAt_spins {M N d : ℕ} (c : SpinConfig M N d) (xs : List (LatticeSite M N)) :
    Spins d xs.length (spinsAt c xs) :=
  ⟨by simp [spinsAt], fun s hs => by
    obtain ⟨x, -, rfl⟩ := List.mem_map.1 hs
    exact (c x).isLt⟩

theorem replaceSpins_spec {M N d : ℕ} (xs : List (LatticeSite M N)) (hn : xs.Nodup) (ss : List ℕ)
    (hs : Spins d xs.length ss) (c : SpinConfig M N d) :
    ∃ c', replaceSpins c xs ss = .ok c' ∧ Agrees xs c c' ∧ spinsAt c' xs = ss := by
  induction xs generalizing ss c with
  | nil =>
    have : ss = [] := List.length_eq_zero_iff.1 hs.1
    subst this
    exact ⟨c, rfl, fun _ _ => rfl, rfl⟩
  | cons x xs ih =>
    cases ss with
    | nil => exact absurd hs.1 (by simp)
    | cons s ss =>
      have h1 := hs.2 s (by simp)
      obtain ⟨c', e1, e2, e3⟩ := ih (List.nodup_cons.1 hn).2 ss
        ⟨by simpa using hs.1, fun t ht => hs.2 t (by simp [ht])⟩ (Function.update c x ⟨s, h1⟩)
      refine ⟨c', by rw [replaceSpins, dif_pos h1]; exact e1, ?_, ?_⟩
      · intro y hy
        rw [List.mem_cons, not_or] at hy
        have := e2 y hy.2
        rwa [Function.update_of_ne hy.1] at this
      · rw [spinsAt, List.map_cons]
        have := e2 x (List.nodup_cons.1 hn).1
        rw [Function.update_self] at this
        rw [← this]
        exact congrArg (s :: ·) e3

theorem agrees_ext {M N d : ℕ} {xs : List (LatticeSite M N)} {c c' c'' : SpinConfig M N d}
    (h : Agrees xs c c') (h' : Agrees xs c c'') (e : spinsAt c' xs = spinsAt c'' xs) : c' = c'' := by
  funext x
  by_cases hx : x ∈ xs
  · have : ∀ x ∈ xs, (c' x).val = (c'' x).val := by
      intro y hy
      exact List.map_inj_left.1 e y hy
    exact Fin.ext (this x hx)
  · rw [← h x hx, ← h' x hx]

theorem replaceSpins_eq {M N d : ℕ} {xs : List (LatticeSite M N)} (hn : xs.Nodup)
    {c c' : SpinConfig M N d} (h : Agrees xs c c') :
    replaceSpins c xs (spinsAt c' xs) = .ok c' := by
  obtain ⟨c'', e1, e2, e3⟩ := replaceSpins_spec xs hn _ (spinsAt_spins c' xs) c
  rw [e1, agrees_ext e2 h e3]

theorem sitesAt_length {M N : ℕ} {ps : List (ℤ × ℤ)} {xs : List (LatticeSite M N)}
    (h : sitesAt M N ps = .ok xs) : xs.length = ps.length := by
  induction ps generalizing xs with
  | nil =>
    have : [] = xs := Outcome.ok.inj h
    subst this; rfl
  | cons p ps ih =>
    obtain ⟨x, -, h⟩ := bind_ok h
    obtain ⟨ys, h1, h2⟩ := bind_ok h
    have : x :: ys = xs := Outcome.ok.inj h2
    subst this
    rw [List.length_cons, List.length_cons, ih h1]

/-- The sites where two configurations differ, in order. -/
def diffSites {M N d : ℕ} (c c' : SpinConfig M N d) : List (LatticeSite M N) :=
  (latticeSites M N).filter fun x => decide (c x ≠ c' x)

theorem diffSites_symm {M N d : ℕ} (c c' : SpinConfig M N d) : diffSites c c' = diffSites c' c := by
  apply List.filter_congr
  intro x _
  simp [eq_comm]

theorem diffSites_nil {M N d : ℕ} {c c' : SpinConfig M N d} : diffSites c c' = [] ↔ c = c' := by
  constructor
  · intro h
    funext x
    have := List.filter_eq_nil_iff.1 h x (latticeSites_mem x)
    simpa using this
  · rintro rfl
    simp [diffSites]

theorem replacedAmplitude_eq {M N d : ℕ} (w : SpinConfig M N d → K) (c c' : SpinConfig M N d) :
    replacedAmplitude w c (w c) c' =
      if replaceable (diffSites c c') then .ok (w c') else .error "Unsupported replacement style" := by
  rw [replacedAmplitude]
  by_cases h : diffSites c c' = []
  · have e := diffSites_nil.1 h
    subst e
    show (match diffSites c c with | [] => _ | l => _) = _
    rw [h]
    rfl
  · show (match diffSites c c' with | [] => _ | l => _) = _
    revert h
    generalize diffSites c c' = l
    intro h
    cases l with
    | nil => exact absurd rfl h
    | cons x l => rfl

/-! ## Observing -/

/-- What is used about `std::real`, `std::norm` and complex conjugation. -/
structure ScalarLaws [Field K] [Field R] (ops : ScalarOps K R) (conj : K → K) : Prop where
  re_zero : ops.re 0 = 0
  re_add : ∀ a b, ops.re (a + b) = ops.re a + ops.re b
  re_div : ∀ a z, z ≠ 0 → ops.re (a / z) * ops.normSq z = ops.re (conj z * a)
  normSq_zero : ops.normSq 0 = 0

section observe

variable [Field K] [DecidableEq K] [Field R] [DecidableEq R]

/-- The configurations which the operator connects with a given one. -/
theorem row_sum {d body : ℕ} {value : List ℕ → K} {t : ElementTable K}
    (ht : TableOf value (Element d body value) (Element d body value) t) {M N : ℕ}
    {xs : List (LatticeSite M N)} (hb : xs.length = body) (hn : xs.Nodup) (c : SpinConfig M N d)
    {row : List (List ℕ × K)} (hrow : OMap.find? t (spinsAt c xs) = some row)
    (G : SpinConfig M N d → K → R) (g : List ℕ × K → R)
    (hg : ∀ e ∈ row, ∀ c', replaceSpins c xs e.1 = .ok c' → g e = G c' e.2)
    (hG : ∀ c', G c' 0 = 0) [DecidablePred fun c' : SpinConfig M N d => Agrees xs c c'] :
    (row.map g).sum =
      ∑ c' : SpinConfig M N d, if Agrees xs c c' then G c' (value (spinsAt c xs ++ spinsAt c' xs)) else 0 := by
  subst hb
  obtain ⟨hs, -, hrow'⟩ := ht.2.1 _ _ hrow
  have hmem : ∀ b v, (b, v) ∈ row ↔
      Element d xs.length value (spinsAt c xs) b ∧ v = value (spinsAt c xs ++ b) := by
    intro b v
    rw [← OMap.find?_iff_mem hs.nodup, hrow']
  have hnd : row.Nodup := by
    have := hs.nodup
    exact List.Nodup.of_map _ this
  rw [← List.sum_toFinset g hnd, ← Finset.sum_filter]
  have hsub : ∑ c' ∈ Finset.univ.filter fun c' => Agrees xs c c' ∧
      value (spinsAt c xs ++ spinsAt c' xs) ≠ 0, G c' (value (spinsAt c xs ++ spinsAt c' xs)) =
      ∑ c' ∈ Finset.univ.filter fun c' => Agrees xs c c',
        G c' (value (spinsAt c xs ++ spinsAt c' xs)) := by
    apply Finset.sum_subset
    · intro c' h
      simp only [Finset.mem_filter, Finset.mem_univ, true_and] at h ⊢
      exact h.1
    · intro c' h1 h2
      simp only [Finset.mem_filter, Finset.mem_univ, true_and, not_and, not_not] at h1 h2
      rw [h2 h1, hG]
  rw [← hsub]
  symm
  refine Finset.sum_bij (fun c' _ => (spinsAt c' xs, value (spinsAt c xs ++ spinsAt c' xs))) ?_ ?_ ?_ ?_
  · intro c' h
    simp only [Finset.mem_filter, Finset.mem_univ, true_and] at h
    rw [List.mem_toFinset, hmem]
    exact ⟨⟨spinsAt_spins c xs, spinsAt_spins c' xs, h.2⟩, rfl⟩
  · intro c1 h1 c2 h2 e
    simp only [Finset.mem_filter, Finset.mem_univ, true_and] at h1 h2
    exact agrees_ext h1.1 h2.1 (congrArg Prod.fst e)
  · rintro ⟨b, v⟩ h
    rw [List.mem_toFinset, hmem] at h
    obtain ⟨⟨-, h1, h2⟩, rfl⟩ := h
    obtain ⟨c', e1, e2, e3⟩ := replaceSpins_spec xs hn b h1 c
    refine ⟨c', ?_, by rw [e3]⟩
    simp only [Finset.mem_filter, Finset.mem_univ, true_and]
    rw [e3]
    exact ⟨e2, h2⟩
  · intro c' h
    simp only [Finset.mem_filter, Finset.mem_univ, true_and] at h
    refine (hg (spinsAt c' xs, value (spinsAt c xs ++ spinsAt c' xs)) ?_ c'
      (replaceSpins_eq hn h.1)).symm
    rw [hmem]
    exact ⟨⟨spinsAt_spins c xs, spinsAt_spins c' xs, h.2⟩, rfl⟩

/-- What a configuration adds to the expectation value. -/
def localSum (ops : ScalarOps K R) (conj : K → K) {M N d : ℕ} (w : SpinConfig M N d → K)
    (value : List ℕ → K) (xs : List (LatticeSite M N)) (c : SpinConfig M N d)
    [DecidablePred fun c' : SpinConfig M N d => Agrees xs c c'] : R :=
  ∑ c' : SpinConfig M N d,
    if Agrees xs c c' then ops.re (conj (w c) * value (spinsAt c xs ++ spinsAt c' xs) * w c') else 0

theorem observeTerm_spec {ops : ScalarOps K R} {conj : K → K} (laws : ScalarLaws ops conj) {M N d : ℕ}
    (w : SpinConfig M N d → K) (c : SpinConfig M N d) {body : ℕ} {value : List ℕ → K}
    {t : ElementTable K} (ht : TableOf value (Element d body value) (Element d body value) t)
    {ps : List (ℤ × ℤ)} {xs : List (LatticeSite M N)} (hx : sitesAt M N ps = .ok xs)
    (hb : ps.length = body) (hn : xs.Nodup) {v : R}
    [DecidablePred fun c' : SpinConfig M N d => Agrees xs c c']
    (h : observeTerm ops w c (w c) t ps = .ok v) :
    w c ≠ 0 ∧ v * ops.normSq (w c) = localSum ops conj w value xs c := by
  obtain ⟨xs', hx', h⟩ := bind_ok h
  obtain rfl := Outcome.ok.inj (hx.symm.trans hx')
  obtain ⟨row, h1, h2⟩ := bind_ok h
  have hrow : OMap.find? t (spinsAt c xs) = some row := by
    rw [tableRow] at h1
    cases hf : OMap.find? t (spinsAt c xs) with
    | none => rw [hf] at h1; cases h1
    | some r => rw [hf] at h1; rw [Outcome.ok.inj h1]
  have step : ∀ (v : R) (e : List ℕ × K) (v' : R), observeElement ops w c (w c) xs v e = .ok v' →
      w c ≠ 0 ∧ ∃ c', replaceSpins c xs e.1 = .ok c' ∧ v' = v + ops.re (e.2 * w c' / w c) := by
    intro v e v' he
    obtain ⟨c', e1, he⟩ := bind_ok he
    obtain ⟨wss, e2, he⟩ := bind_ok he
    obtain ⟨q, e3, he⟩ := bind_ok he
    have hv : v + ops.re q = v' := Outcome.ok.inj he
    rw [replacedAmplitude_eq] at e2
    have e2' : w c' = wss := by
      split at e2
      · exact Outcome.ok.inj e2
      · cases e2
    rw [divScalar] at e3
    split at e3
    · cases e3
    · rename_i hw
      have := Outcome.ok.inj e3
      exact ⟨hw, c', e1, by rw [← hv, ← this, e2']⟩
  have hw : w c ≠ 0 := by
    obtain ⟨-, ⟨b, hb'⟩, hr⟩ := ht.2.1 _ _ hrow
    have hmem := OMap.mem_of_find? ((hr b (value (spinsAt c xs ++ b))).2 ⟨hb', rfl⟩)
    obtain ⟨u, u', hu⟩ := foldlM_ok_each _ _ _ _ h2 _ hmem
    exact (step _ _ _ hu).1
  refine ⟨hw, ?_⟩
  classical
  -- the value of one element, as a function of the element
  let g : List ℕ × K → R := fun e =>
    match replaceSpins c xs e.1 with
    | .ok c' => ops.re (e.2 * w c' / w c)
    | _ => 0
  have hsum := foldlM_ok_sum (observeElement ops w c (w c) xs) g row (by
    intro v e _ v' he
    obtain ⟨-, c', e1, e2⟩ := step v e v' he
    rw [e2]
    simp only [g, e1]) 0 v h2
  rw [zero_add] at hsum
  rw [hsum, localSum, row_sum ht ((sitesAt_length hx).trans hb) hn c hrow
    (fun c' z => ops.re (z * w c' / w c)) g (by
      intro e _ c' e1
      simp only [g, e1]) (by
      intro c'
      show ops.re (0 * w c' / w c) = 0
      rw [zero_mul, zero_div, laws.re_zero]), Finset.sum_mul]
  refine Finset.sum_congr rfl fun c' _ => ?_
  split
  · rw [laws.re_div _ _ hw, mul_assoc]
  · rw [zero_mul]

/-- The sums of `ergodic` over the steps. -/
theorem ergodicFold_spec {ops : ScalarOps K R} {conj : K → K} (laws : ScalarLaws ops conj) {M N d : ℕ}
    [NeZero d] (w : SpinConfig M N d → K) {body : ℕ} {value : List ℕ → K}
    {t : ElementTable K} (ht : TableOf value (Element d body value) (Element d body value) t)
    {ps : List (ℤ × ℤ)} {xs : List (LatticeSite M N)} (hx : sitesAt M N ps = .ok xs)
    (hb : ps.length = body) (hn : xs.Nodup) (c0 : SpinConfig M N d)
    [∀ c, DecidablePred fun c' : SpinConfig M N d => Agrees xs c c'] :
    ∀ (l : List ℕ) (s s' : SpinConfig M N d × R × R),
      l.foldlM (ergodicStep ops w t ps) s = .ok s' →
      (∀ k ∈ l, w (ergodicSpin c0 k) ≠ 0) ∧
      s'.2.1 = s.2.1 + (l.map fun k => ops.normSq (w (ergodicSpin c0 k))).sum ∧
      s'.2.2 = s.2.2 + (l.map fun k => localSum ops conj w value xs (ergodicSpin c0 k)).sum := by
  intro l
  induction l with
  | nil =>
    intro s s' h
    have : s = s' := Outcome.ok.inj h
    subst this
    simp
  | cons k l ih =>
    intro s s' h
    rw [List.foldlM_cons] at h
    obtain ⟨s1, h1, h2⟩ := bind_ok h
    obtain ⟨g1, g2, g3⟩ := ih s1 s' h2
    obtain ⟨v, e1, e2⟩ := bind_ok h1
    rw [C54_ergodic_forgets s.1 c0] at e1 e2
    obtain ⟨k1, k2⟩ := observeTerm_spec laws w _ ht hx hb hn e1
    have e2' := Outcome.ok.inj e2
    subst e2'
    refine ⟨?_, ?_, ?_⟩
    · intro j hj
      rcases List.mem_cons.1 hj with rfl | hj
      · exact k1
      · exact g1 j hj
    · rw [g2, List.map_cons, List.sum_cons, add_assoc]
    · rw [g3, List.map_cons, List.sum_cons, ← k2, add_assoc]

/-- A sum over the steps is a sum over the configurations. -/
theorem sum_steps {M N d : ℕ} [NeZero d] {A : Type} [AddCommMonoid A] (c0 : SpinConfig M N d)
    (F : SpinConfig M N d → A) :
    ((List.range (d ^ (M * N))).map fun k => F (ergodicSpin c0 k)).sum = ∑ c, F c := by
  rw [← List.sum_toFinset _ List.nodup_range]
  refine Finset.sum_bij (fun k _ => ergodicSpin c0 k) ?_ ?_ ?_ ?_
  · intros; exact Finset.mem_univ _
  · intro a ha b hb e
    simp only [List.mem_toFinset, List.mem_range] at ha hb
    obtain ⟨k, -, hk⟩ := C54_ergodic_enumeration c0 (ergodicSpin c0 b)
    rw [hk a ⟨ha, e⟩, hk b ⟨hb, rfl⟩]
  · intro c _
    obtain ⟨k, ⟨hk, e⟩, -⟩ := C54_ergodic_enumeration c0 c
    exact ⟨k, by simpa using hk, e⟩
  · intros; rfl

end observe

/-! ## Which replacements are possible -/

/-- The next site to the right or below. -/
def Adjacent {M N : ℕ} (x y : LatticeSite M N) : Prop :=
  (x.1 = y.1 ∧ x.2.val + 1 = y.2.val) ∨ (x.2 = y.2 ∧ x.1.val + 1 = y.1.val)

/-- One site or two neighbours. -/
def Supported {M N : ℕ} (xs : List (LatticeSite M N)) : Prop :=
  (∃ x, xs = [x]) ∨ ∃ x y, xs = [x, y] ∧ (Adjacent x y ∨ Adjacent y x)

theorem latticeSites_sorted (M N : ℕ) : (latticeSites M N).Pairwise fun x y =>
    x.1 < y.1 ∨ x.1 = y.1 ∧ x.2 < y.2 := by
  rw [latticeSites, List.pairwise_flatMap]
  refine ⟨fun i _ => ?_, ?_⟩
  · rw [List.pairwise_map]
    exact (List.pairwise_lt_finRange N).imp fun h => Or.inr ⟨rfl, h⟩
  · refine (List.pairwise_lt_finRange M).imp ?_
    intro i j h x hx y hy
    obtain ⟨a, -, rfl⟩ := List.mem_map.1 hx
    obtain ⟨b, -, rfl⟩ := List.mem_map.1 hy
    exact Or.inl h

theorem Adjacent.lt {M N : ℕ} {x y : LatticeSite M N} (h : Adjacent x y) :
    x.1 < y.1 ∨ x.1 = y.1 ∧ x.2 < y.2 := by
  rcases h with ⟨h1, h2⟩ | ⟨h1, h2⟩
  · exact Or.inr ⟨h1, by rw [Fin.lt_def]; omega⟩
  · exact Or.inl (by rw [Fin.lt_def]; omega)

theorem Supported.nodup {M N : ℕ} {xs : List (LatticeSite M N)} (h : Supported xs) : xs.Nodup := by
  have key : ∀ {x y : LatticeSite M N}, Adjacent x y → x ≠ y := by
    rintro x y h rfl
    rcases h.lt with h | h
    · exact lt_irrefl _ h
    · exact lt_irrefl _ h.2
  rcases h with ⟨x, rfl⟩ | ⟨x, y, rfl, h | h⟩
  · simp
  · simpa using key h
  · simpa using (key h).symm

theorem Supported.replaceable {M N d : ℕ} {xs : List (LatticeSite M N)} (h : Supported xs)
    {c c' : SpinConfig M N d} (ha : Agrees xs c c') : replaceable (diffSites c c') = true := by
  have hmem : ∀ z ∈ diffSites c c', z ∈ xs := by
    intro z hz
    by_contra hn
    have := (List.mem_filter.1 hz).2
    simp [ha z hn] at this
  have hs := (latticeSites_sorted M N).sublist (List.filter_sublist (p := fun x => decide (c x ≠ c' x)))
  change (diffSites c c').Pairwise _ at hs
  have key : ∀ (x y : LatticeSite M N) (l : List (LatticeSite M N)), Adjacent x y →
      (∀ z ∈ l, z = x ∨ z = y) →
      l.Pairwise (fun x y => x.1 < y.1 ∨ x.1 = y.1 ∧ x.2 < y.2) → TAT.replaceable l = true := by
    intro x y l hxy hm hp
    have hlt := hxy.lt
    match l, hm, hp with
    | [], _, _ => rfl
    | [_], _, _ => rfl
    | [a, b], hm, hp =>
      have hab := (List.pairwise_cons.1 hp).1 b (by simp)
      have e1 := hm a (by simp)
      have e2 := hm b (by simp)
      have irr : ∀ z : LatticeSite M N, ¬ (z.1 < z.1 ∨ z.1 = z.1 ∧ z.2 < z.2) := by simp
      rcases e1 with rfl | rfl <;> rcases e2 with rfl | rfl
      · exact absurd hab (irr _)
      · rw [TAT.replaceable, Bool.or_eq_true, decide_eq_true_iff, decide_eq_true_iff]
        exact hxy
      · simp only [Fin.lt_def, Fin.ext_iff] at hlt hab
        omega
      · exact absurd hab (irr _)
    | a :: b :: e :: l, hm, hp =>
      have irr : ∀ z : LatticeSite M N, ¬ (z.1 < z.1 ∨ z.1 = z.1 ∧ z.2 < z.2) := by simp
      have hab := (List.pairwise_cons.1 hp).1 b (by simp)
      have hae := (List.pairwise_cons.1 hp).1 e (by simp)
      have hbe := (List.pairwise_cons.1 (List.pairwise_cons.1 hp).2).1 e (by simp)
      rcases hm a (by simp) with rfl | rfl <;> rcases hm b (by simp) with rfl | rfl <;>
        rcases hm e (by simp) with rfl | rfl <;> first
        | exact absurd hab (irr _)
        | exact absurd hae (irr _)
        | exact absurd hbe (irr _)
  rcases h with ⟨x, rfl⟩ | ⟨x, y, rfl, h | h⟩
  · generalize diffSites c c' = l at hmem hs
    match l, hmem, hs with
    | [], _, _ => rfl
    | [_], _, _ => rfl
    | a :: b :: l, hm, hp =>
      have hab := (List.pairwise_cons.1 hp).1 b (by simp)
      have e1 : a = x := by simpa using hm a (by simp)
      have e2 : b = x := by simpa using hm b (by simp)
      subst e1
      subst e2
      simp at hab
  · exact key x y _ h (fun z hz => by simpa using hmem z hz) hs
  · exact key y x _ h (fun z hz => by simpa [or_comm] using hmem z hz) hs

end TAT
