import Verif.Square.GradExample
import Mathlib.Analysis.SpecificLimits.Basic

/-!
# A case of `C67_gradient`: real numbers, one site, the derivative of the energy is 16 / 25
-/

namespace TAT

open Filter Topology

/-- `refGesvd` for real numbers. -/
noncomputable def realGesvd : Gesvd ℝ ℝ := fun n m data =>
  if n ≤ m then
    (colMajor n n fun i l => if i = l then 1 else 0, (List.range n).map fun l : ℕ => (n : ℝ) - (l : ℝ),
      colMajor n m fun l j => data.getD (l + j * n) 0 / ((n : ℝ) - l))
  else
    (colMajor n m fun i l => data.getD (i + l * n) 0 / ((m : ℝ) - l),
      (List.range m).map fun l : ℕ => (m : ℝ) - (l : ℝ), colMajor m m fun l j => if l = j then 1 else 0)

theorem realGesvd_ok : GesvdOk id realGesvd := by
  intro n m data hn hm hd
  have hs : ∀ k l : ℕ, l < k → ((List.range k).map fun l : ℕ => (k : ℝ) - (l : ℝ)).getD l 0 = (k : ℝ) - l := by
    intro k l hl
    rw [List.getD_eq_getElem?_getD, List.getElem?_map, List.getElem?_range hl]
    rfl
  have hne : ∀ k l : ℕ, l < k → (k : ℝ) - l ≠ 0 := by
    intro k l hl hc
    rw [sub_eq_zero] at hc
    have : k = l := by exact_mod_cast hc
    omega
  unfold realGesvd
  by_cases h : n ≤ m
  · rw [if_pos h, Nat.min_eq_left h]
    refine ⟨_, _, _, rfl, colMajor_length _ _ _, by simp, colMajor_length _ _ _,
      fun i hi j hj => ?_⟩
    rw [sum_single _ hi fun l hl hne => by
      rw [colMajor_getD _ hi hl, if_neg (Ne.symm hne)]; simp]
    rw [colMajor_getD _ hi hi, colMajor_getD _ hi hj, if_pos rfl, hs n i hi]
    have := hne n i hi
    simp only [id]
    field_simp
  · have h' : m ≤ n := by omega
    rw [if_neg h, Nat.min_eq_right h']
    refine ⟨_, _, _, rfl, colMajor_length _ _ _, by simp, colMajor_length _ _ _,
      fun i hi j hj => ?_⟩
    rw [sum_single _ hj fun l hl hne => by
      rw [colMajor_getD _ hl hj, if_neg hne]; simp]
    rw [colMajor_getD _ hi hj, colMajor_getD _ hj hj, if_pos rfl, hs m j hj]
    have := hne m j hj
    simp only [id]
    field_simp

/-- Strings as names and real numbers. -/
noncomputable def realEnv (lp : LapackQr ℝ) : NetEnv String ℝ ℝ where
  ce := ⟨refGemm, ⟨⟨8, 32768, 1, 1⟩, fun _ _ => 5, fun _ => true⟩, ⟨⟨8, 32768, 1, 1⟩, fun _ _ => 6, fun _ => true⟩,
    ⟨⟨8, 32768, 1, 1⟩, fun _ _ => 7, fun _ => true⟩, fun _ _ => 8, fun _ _ => 9⟩
  cn := ⟨",Contract_0", ",Contract_1", ",Contract_2"⟩
  lp := lp
  qrEnv := ⟨⟨⟨8, 32768, 1, 1⟩, fun _ _ => 0, fun _ => false⟩, fun _ _ => 9, fun _ _ => 9,
    ⟨⟨8, 32768, 1, 1⟩, fun _ _ => 0, fun _ => false⟩, ⟨⟨8, 32768, 1, 1⟩, fun _ _ => 0, fun _ => false⟩⟩
  qrJunk := fun _ => 5
  qn := ⟨",QR_1", ",QR_2"⟩
  gesvd := realGesvd
  svdEnv := ⟨⟨⟨8, 32768, 1, 1⟩, fun _ _ => 0, fun _ => false⟩, fun _ _ => 9, fun _ _ => 9,
    ⟨⟨8, 32768, 1, 1⟩, fun _ _ => 0, fun _ => false⟩, ⟨⟨8, 32768, 1, 1⟩, fun _ _ => 0, fun _ => false⟩⟩
  svdJunk := fun _ => 5
  sn := ⟨",SVD_U", ",SVD_V"⟩
  junk := fun _ _ => 3
  c := id
  inv := fun x => 1 / x
  nm := id
  abs := fun x => |x|

theorem realEnv_ok {lp : LapackQr ℝ} (hlp : LapackQrOk lp) : AuxEnvOk (realEnv lp).toAuxEnv where
  gemm := refGemm_ok
  names := (by decide : [",Contract_0", ",Contract_1", ",Contract_2"].Nodup)
  qr := hlp
  svd := realGesvd_ok
  inj := fun _ _ h => h
  qn := (by decide : ",QR_1" ≠ ",QR_2")
  x1 := inside_ne ",QR_1" (by simp)
  x2 := inside_ne ",QR_2" (by simp)
  sn := (by decide : ",SVD_U" ≠ ",SVD_V")
  u := inside_ne ",SVD_U" (by simp)
  v := inside_ne ",SVD_V" (by simp)

/-- Real scalars. -/
noncomputable def realOps : GradOps ℝ ℝ :=
  ⟨⟨id, fun x => x * x⟩, id, true, ⟨⟨8, 32768, 1, 1⟩, fun _ _ => 4, fun _ => true⟩⟩

theorem realOps_laws : GradLaws realOps (starRingEnd ℝ) where
  scalar := ⟨rfl, fun _ _ => rfl, C56_real_laws.re_div, mul_zero 0⟩
  conj_eq _ := rfl
  conj_conj _ := rfl
  real _ _ := rfl

/-- A tensor with only the physical edge. -/
noncomputable def realSite (a b : ℝ) : Tensor String NoSymmetry ℝ := ⟨["P"], ⟨[⟨false, [(0, 2)]⟩], [([0], [a, b])]⟩⟩

def realNone (_ _ : ℕ) : Option ℕ := none

theorem realSite_edges (a b : ℝ) : SiteEdges id (realSite a b) none none none none 2 := by
  obtain ⟨h1, h2⟩ := dense_plain (t := realSite a b) (dims := [2]) (by simp [realSite]) rfl rfl rfl (by simp)
  have h3 : ∀ m, leg (realSite a b) m = if m = "P" then some 2 else none := fun m => by
    split
    · next h => rw [h]; exact h2 0 (by simp [realSite])
    · next h => exact leg_eq_none.2 (by simpa [realSite] using h)
  refine ⟨h1, h3 _, h3 _, h3 _, h3 _, h3 _, fun n hn => ?_⟩
  rw [h3] at hn
  split at hn
  · next h => simp [h]
  · exact absurd rfl hn

theorem realSite_val (a b : ℝ) (x : String → ℕ) (c : Fin 2) (hx : x "P" = c) :
    val (realSite a b) x = if c = 0 then a else b := by
  have h2 : dimOf (⟨false, [((0 : NoSymmetry), 2)]⟩ : Edge NoSymmetry) 0 = 2 := by simp [dimOf, OMap.find?]
  fin_cases c <;> simp [val, amp, realSite, hx, h2, elem, keyOf, elemAt, idxOf, OMap.find?, dimsOf, rowMajor]

/-- Every amplitude of the lattice. -/
theorem realAmp (a b : ℝ) (c : SpinConfig 1 1 2) :
    sitesAmp id realNone realNone (fun _ _ => realSite a b) c = if c (0, 0) = 0 then a else b := by
  simp only [sitesAmp, netVal, realNone, Option.getD_none, Finset.range_one, Fintype.piFinset_singleton,
    Finset.sum_singleton, Finset.univ_unique, Finset.prod_singleton]
  exact realSite_val _ _ _ _ rfl

/-- The flip of the spin, as a hopping. -/
noncomputable def realHop : List ((ElementTable ℝ × List Pos) × Char) :=
  [(([([0], [([1], 1)]), ([1], [([0], 1)])], [(0, 0)]), ' ')]

def flipValue : List ℕ → ℝ
  | [a, b] => if a = b then 0 else 1
  | _ => 0

theorem realHop_ok : ∀ t ∈ realHop, (∃ value, findHopping 2 t.1.2.length value = .ok t.1.1) ∧
    ∃ xs, sitesAt 1 1 t.1.2 = .ok xs := by
  intro t ht
  obtain rfl := List.mem_singleton.1 ht
  refine ⟨⟨flipValue, ?_⟩, [(0, 0)], by decide +kernel⟩
  simp [findHopping, elementLoop, nextIndex, recordHopping, flipValue, OMap.set, OMap.find?, List.replicate]
  decide

/-- The spin at a step: zero in every fifth. -/
def realConf (k : ℕ) (_ : LatticeSite 1 1) : Fin 2 := if k % 5 = 0 then 0 else 1

/-- The random numbers: a flip from one to zero is accepted in every fifth step. -/
noncomputable def realRandom (step k : ℕ) : ℕ × ℝ := (0, if step % 5 = 4 ∧ k = 1 then 0 else 1 / 2)

/-- The amplitude. -/
def realW (c : SpinConfig 1 1 2) : ℝ := if c (0, 0) = 0 then 1 else 2

theorem realTerm (a b : Fin 2) (hab : a ≠ b) (u : ℝ) :
    markovTerm realOps.toScalarOps realW [([0], [([1], 1)]), ([1], [([0], 1)])] [(0, 0)]
      ((fun _ => a : SpinConfig 1 1 2), realW fun _ => a) 0 u =
        if u * (realW fun _ => a) ^ 2 < (realW fun _ => b) ^ 2 then .ok (fun _ => b, realW fun _ => b)
        else .ok (fun _ => a, realW fun _ => a) := by
  have hpos : ∀ c, 0 < realW c := fun c => by
    rw [realW]
    split <;> norm_num
  have key : tableRow [([0], [([1], (1 : ℝ))]), ([1], [([0], 1)])] [(a : ℕ)] = .ok [([(b : ℕ)], 1)] →
      tableRow [([0], [([1], (1 : ℝ))]), ([1], [([0], 1)])] [(b : ℕ)] = .ok [([(a : ℕ)], 1)] →
      markovTerm realOps.toScalarOps realW [([0], [([1], 1)]), ([1], [([0], 1)])] [(0, 0)]
        ((fun _ => a : SpinConfig 1 1 2), realW fun _ => a) 0 u =
        if u * (realW fun _ => a) ^ 2 < (realW fun _ => b) ^ 2 then .ok (fun _ => b, realW fun _ => b)
        else .ok (fun _ => a, realW fun _ => a) := by
    intro h1 h2
    have e1 : replaceSpins (fun _ : LatticeSite 1 1 => a) [(0, 0)] [(b : ℕ)] = .ok fun _ => b := by
      rw [replaceSpins, dif_pos b.2, replaceSpins]
      congr 1
      funext x
      rw [Subsingleton.elim x (0, 0), Function.update_self]
    have e2 : replacedAmplitude realW (fun _ => a) (realW fun _ => a) (fun _ => b) = .ok (realW fun _ => b) := by
      unfold replacedAmplitude
      split
      · next h => exact absurd (by simpa using List.filter_eq_nil_iff.1 h (0, 0) (by decide)) hab
      · rw [if_pos]
        have : latticeSites 1 1 = [(0, 0)] := by decide
        rw [this]
        simp [hab, replaceable]
    rw [markovTerm, show sitesAt 1 1 [(0, 0)] = .ok [(0, 0)] by decide +kernel, Outcome.bind,
      show spinsAt ((fun _ => a : SpinConfig 1 1 2), realW fun _ => a).1 [(0, 0)] = [(a : ℕ)] from rfl, h1, Outcome.bind,
      if_neg (by simp)]
    show (replaceSpins _ _ [(b : ℕ)]).bind _ = _
    rw [e1, Outcome.bind, e2, Outcome.bind, h2, Outcome.bind, divScalar, if_neg (hpos _).ne', Outcome.bind]
    have hiff : hoppingAccepted (realOps.toScalarOps.normSq ((realW fun _ => b) / realW fun _ => a))
        [([(b : ℕ)], (1 : ℝ))].length [([(a : ℕ)], (1 : ℝ))].length u ↔
        u * (realW fun _ => a) ^ 2 < (realW fun _ => b) ^ 2 := by
      have := hpos fun _ => a
      show (if (1 : ℕ) = 0 then _ else decide (u < ((realW fun _ => b) / realW fun _ => a) *
        ((realW fun _ => b) / realW fun _ => a) * ((1 : ℕ) : ℝ) / ((1 : ℕ) : ℝ))) = true ↔ _
      rw [if_neg one_ne_zero, decide_eq_true_iff, Nat.cast_one, mul_one, div_one, ← sq, div_pow,
        lt_div_iff₀ (by positivity)]
    by_cases hu : u * (realW fun _ => a) ^ 2 < (realW fun _ => b) ^ 2
    · rw [if_pos hu, if_pos (hiff.2 hu)]
    · rw [if_neg hu, if_neg fun h => hu (hiff.1 h)]
  fin_cases a <;> fin_cases b
  · exact absurd rfl hab
  · exact key rfl rfl
  · exact key rfl rfl
  · exact absurd rfl hab

theorem realSweep (k : ℕ) :
    markovSweep realOps.toScalarOps realW (realHop.map Prod.fst) (realConf k, realW (realConf k))
      (realRandom k) = .ok (realConf (k + 1), realW (realConf (k + 1))) := by
  show (markovTerm _ _ _ _ _ 0 (if k % 5 = 4 ∧ (0 : ℕ) = 1 then (0 : ℝ) else 1 / 2)).bind (fun s =>
    (markovTerm _ _ _ _ s 0 (if k % 5 = 4 ∧ (1 : ℕ) = 1 then (0 : ℝ) else 1 / 2)).bind fun s => .ok s) = _
  rw [if_neg (by simp)]
  have t01 := realTerm 0 1 (by decide)
  have t10 := realTerm 1 0 (by decide)
  have w0 : (realW fun _ => 0) = 1 := rfl
  have w1 : (realW fun _ => 1) = 2 := by simp [realW]
  rw [w0, w1] at t01 t10
  have c0 : ∀ k, k % 5 = 0 → realConf k = fun _ => 0 := fun k h => funext fun _ => if_pos h
  have c1 : ∀ k, k % 5 ≠ 0 → realConf k = fun _ => 1 := fun k h => funext fun _ => if_neg h
  by_cases h0 : k % 5 = 0
  · rw [c0 k h0, c1 (k + 1) (by omega), w0, w1, t01, if_pos (by norm_num), Outcome.bind, if_neg (by omega), t10,
      if_neg (by norm_num), Outcome.bind]
  · by_cases h4 : k % 5 = 4
    · rw [c1 k h0, c0 (k + 1) (by omega), w0, w1, t10, if_neg (by norm_num), Outcome.bind, if_pos ⟨h4, rfl⟩, t10,
        if_pos (by norm_num), Outcome.bind]
    · rw [c1 k h0, c1 (k + 1) (by omega), w1, t10, if_neg (by norm_num), Outcome.bind, if_neg (by omega), t10,
        if_neg (by norm_num), Outcome.bind]

/-- The configurations after the steps. -/
def realVisited (n : ℕ) : List (SpinConfig 1 1 2) := (List.range (n + 1)).map fun k => realConf (k + 1)

theorem realVisits (n k : ℕ) : Visits realOps.toScalarOps realW (realHop.map Prod.fst) realRandom (realConf k) k
    ((List.range' k n).map fun k => realConf (k + 1)) := by
  induction n generalizing k with
  | zero => trivial
  | succ n ih => exact ⟨realSweep k, ih (k + 1)⟩

theorem realCount (n : ℕ) (a : Fin 2) : ((List.range n).map fun k => realConf (k + 1)).count (fun _ => a) =
    if a = 0 then n / 5 else n - n / 5 := by
  induction n with
  | zero => fin_cases a <;> rfl
  | succ n ih =>
    rw [List.range_succ, List.map_append, List.count_append, ih, List.map_singleton, List.count_singleton]
    have : (realConf (n + 1) == fun _ => a) = decide ((if (n + 1) % 5 = 0 then 0 else 1) = a) := by
      rw [beq_eq_decide]
      refine decide_eq_decide.2 ⟨fun h => congrFun h (0, 0), fun h => funext fun x => h⟩
    rw [this]
    by_cases h : (n + 1) % 5 = 0 <;> fin_cases a <;> simp [h] <;> omega

/-- The square of the amplitude, divided by the sum of the squares. -/
noncomputable def realP (a : Fin 2) : ℝ := if a = 0 then 1 / 5 else 4 / 5

theorem realFrequency (a : Fin 2) :
    Tendsto (fun n => frequency (realVisited n) fun _ => a) atTop (𝓝 (realP a)) := by
  have key : ∀ n : ℕ, |frequency (realVisited n) (fun _ => a) - realP a| ≤ 1 / ((n : ℝ) + 1) := by
    intro n
    have h1 : 5 * (realVisited n).count (fun _ => a) ≤ (if a = 0 then 1 else 4) * (n + 1) + 5 ∧
        (if a = 0 then 1 else 4) * (n + 1) ≤ 5 * (realVisited n).count (fun _ => a) + 5 := by
      rw [realVisited, realCount]
      split <;> omega
    have h2 : 5 * ((realVisited n).count (fun _ => a) : ℝ) ≤ (if a = 0 then 1 else 4) * ((n : ℝ) + 1) + 5 := by
      have := h1.1
      split at this <;> split <;> first | exact absurd ‹_› ‹_› | exact_mod_cast this
    have h3 : (if a = 0 then 1 else 4) * ((n : ℝ) + 1) ≤ 5 * ((realVisited n).count (fun _ => a) : ℝ) + 5 := by
      have := h1.2
      split at this <;> split <;> first | exact absurd ‹_› ‹_› | exact_mod_cast this
    have h4 : ((realVisited n).length : ℝ) = (n : ℝ) + 1 := by simp [realVisited]
    have h5 : (0 : ℝ) < (n : ℝ) + 1 := by positivity
    have h6 : realP a = (if a = 0 then 1 else 4) * ((n : ℝ) + 1) / (5 * ((n : ℝ) + 1)) := by
      rw [realP, mul_div_mul_right _ _ h5.ne']
      split <;> rfl
    rw [frequency, h4, h6, show ((realVisited n).count (fun _ => a) : ℝ) / ((n : ℝ) + 1) =
      5 * ((realVisited n).count (fun _ => a) : ℝ) / (5 * ((n : ℝ) + 1)) by rw [mul_div_mul_left _ _ (by norm_num)],
      ← sub_div, abs_div, abs_of_pos (by positivity : (0 : ℝ) < 5 * ((n : ℝ) + 1)), div_le_div_iff₀ (by positivity) h5]
    have : |5 * ((realVisited n).count (fun _ => a) : ℝ) - (if a = 0 then 1 else 4) * ((n : ℝ) + 1)| ≤ 5 :=
      abs_le.2 ⟨by linarith, by linarith⟩
    nlinarith
  rw [tendsto_iff_norm_sub_tendsto_zero]
  exact squeeze_zero (fun n => norm_nonneg _) key tendsto_one_div_add_atTop_nhds_zero_nat

theorem realSum {A : Type} [AddCommMonoid A] (F : SpinConfig 1 1 2 → A) : ∑ c, F c = F (fun _ => 0) + F fun _ => 1 := by
  have : (Finset.univ : Finset (SpinConfig 1 1 2)) = {fun _ => 0, fun _ => 1} := by decide
  rw [this, Finset.sum_pair]
  intro h
  exact absurd (congrFun h (0, 0)) (by decide)

/-- The hamiltonian: one if the spin is zero, minus one if it is one. -/
def signValue : List ℕ → ℝ
  | [a, b] => if a = b then if a = 0 then 1 else -1 else 0
  | _ => 0

theorem realHam : ∃ t, findElement 2 1 signValue = .ok t :=
  (findElement_spec (d := 2) (body := 1) (by decide) (by decide) signValue).imp fun _ h => h.1

/-- The hamiltonian with its table. -/
def realObs (t : ElementTable ℝ) : Observable 1 1 ℝ := ⟨signValue, t, [(0, 0)], [(0, 0)]⟩

theorem realObs_ok {t : ElementTable ℝ} (ht : findElement 2 1 signValue = .ok t) : ∀ o ∈ [] ++ [realObs t],
    ObservableOk 2 o ∧ Supported o.sites ∧
      ∀ a, Spins 2 o.positions.length a → ∃ b, Spins 2 o.positions.length b ∧ o.value (a ++ b) ≠ 0 := by
  intro o hm
  obtain rfl : o = realObs t := by simpa using hm
  have h1 : sitesAt 1 1 [(0, 0)] = .ok [(0, 0)] := by decide +kernel
  refine ⟨⟨ht, h1, List.nodup_singleton _⟩, Or.inl ⟨_, rfl⟩, fun a ha => ⟨a, ha, ?_⟩⟩
  obtain ⟨x, rfl⟩ := List.length_eq_one_iff.1 ha.1
  show (if x = x then if x = 0 then (1 : ℝ) else -1 else 0) ≠ 0
  rw [if_pos rfl]
  split <;> norm_num

theorem realObs_matrix (t : ElementTable ℝ) (c c' : SpinConfig 1 1 2) :
    hamMatrix [realObs t] c c' = signValue [(c (0, 0)).val, (c' (0, 0)).val] := by
  rw [hamMatrix, List.map_singleton, List.sum_singleton, if_pos]
  · rfl
  · intro x hx
    exact absurd (by rw [Subsingleton.elim x (0, 0)]; exact List.mem_singleton_self _) hx

theorem realObs_hermitian (t : ElementTable ℝ) (c c' : SpinConfig 1 1 2) :
    hamMatrix [realObs t] c' c = star (hamMatrix [realObs t] c c') := by
  rw [realObs_matrix, realObs_matrix, star_trivial]
  by_cases h : (c (0, 0)).val = (c' (0, 0)).val
  · rw [h]
  · rw [signValue, signValue, if_neg h, if_neg (Ne.symm h)]

theorem realLine (ε : ℝ) (y : String → ℕ) :
    val (realSite (1 + ε) 2) y = val (realSite 1 2) y + ε * val (realSite 1 0) y := by
  by_cases h : y "P" < 2
  · rw [realSite_val _ _ y ⟨y "P", h⟩ rfl, realSite_val _ _ y ⟨y "P", h⟩ rfl, realSite_val _ _ y ⟨y "P", h⟩ rfl]
    split <;> ring
  · have : ∀ a b, val (realSite a b) y = 0 := fun a b => by
      refine if_neg fun hc => h ?_
      have := hc.1 ("P", ⟨false, [(0, 2)]⟩) (by simp [realSite])
      simpa [dimOf, OMap.find?] using this
    rw [this, this, this]
    ring

theorem realEnergy (t : ElementTable ℝ) : HasDerivAt (fun ε : ℝ => energyAt (hamMatrix (d := 2) [realObs t])
    (sitesAmp id realNone realNone (setSite (fun _ _ => realSite 1 2) 0 0 (realSite (1 + ε) 2)))) (16 / 25) 0 := by
  have hE : (fun ε : ℝ => energyAt (hamMatrix (d := 2) [realObs t])
      (sitesAmp id realNone realNone (setSite (fun _ _ => realSite 1 2) 0 0 (realSite (1 + ε) 2)))) =
      fun ε : ℝ => (-3 + ε * 2 + ε ^ 2 * 1) / (5 + ε * 2 + ε ^ 2 * 1) := by
    funext ε
    have h1 : sitesAmp id realNone realNone (setSite (fun _ _ => realSite 1 2) 0 0 (realSite (1 + ε) 2)) =
        fun c : SpinConfig 1 1 2 => if c (0, 0) = 0 then 1 + ε else 2 := funext fun c => by
      rw [← realAmp]
      refine netVal_congr fun i hi j hj => ?_
      rw [Nat.lt_one_iff.1 hi, Nat.lt_one_iff.1 hj]
      rfl
    rw [h1, energyAt, realSum, realSum, realSum, realSum]
    simp only [realObs_matrix]
    simp [signValue, RCLike.normSq_apply]
    congr 1 <;> ring
  rw [hE]
  exact ((hasDerivAt_line (-3) 2 1).div (hasDerivAt_line 5 2 1) (by norm_num)).congr_deriv (by norm_num)

theorem realOn (lp : LapackQr ℝ) : SitesOn (realEnv lp).nm 1 1 2 (fun _ _ => realSite 1 2) realNone realNone :=
  ⟨fun _ _ _ _ => realSite_edges 1 2, fun _ => rfl, fun _ => rfl, fun _ => rfl, fun _ => rfl⟩

theorem realAmps (lp : LapackQr ℝ) : sitesAmp (realEnv lp).nm realNone realNone (fun _ _ => realSite 1 2) =
    realW := funext fun c => realAmp 1 2 c

theorem realVisited_length (n : ℕ) : (realVisited n).length = n + 1 := by simp [realVisited]

theorem realVisited_visits (lp : LapackQr ℝ) (n : ℕ) : Visits realOps.toScalarOps
    (sitesAmp (realEnv lp).nm realNone realNone fun _ _ => realSite 1 2) (realHop.map Prod.fst) realRandom (realConf 0) 0
    (realVisited n) := by
  rw [realAmps, realVisited, List.range_eq_range']
  exact realVisits (n + 1) 0

theorem realWeight (lp : LapackQr ℝ) (a : Fin 2) :
    weightOf (sitesAmp (realEnv lp).nm realNone realNone fun _ _ => realSite 1 2) (fun _ => a : SpinConfig 1 1 2) = realP a := by
  rw [realAmps, weightOf, realSum]
  fin_cases a <;> simp [realW, realP, RCLike.normSq_apply] <;> norm_num

theorem realW_ne (c : SpinConfig 1 1 2) : realW c ≠ 0 := by
  rw [realW]
  split <;> norm_num

/-- The run returns. -/
theorem realReturns {lp : LapackQr ℝ} (hlp : LapackQrOk lp) {t : ElementTable ℝ}
    (ht : findElement 2 1 signValue = .ok t) : ∃ B, ∀ cut, B ≤ cut → ∀ st : SpinState 1 1 String ℝ,
    HasSpins (realEnv lp) (fun _ _ => realSite 1 2) st (realConf 0) →
    ∃ r : ℕ → SpinState 1 1 String ℝ × List (ℝ × Outcome ℝ) × (LatticeSite 1 1 → Tensor String NoSymmetry ℝ), ∀ n,
      markov (realEnv lp) realOps 2 cut (fun _ _ => realSite 1 2) realHop (([] : List (Observable 1 1 ℝ)).map Observable.term)
        ([realObs t].map Observable.term) (n + 1) false true realRandom st = .ok ((r n).1, (r n).2.1, some (r n).2.2) := by
  obtain ⟨B, hB⟩ := C67_returns (e := realEnv lp) (realEnv_ok hlp) (realOn lp) realOps_laws (by decide) (by decide)
    (by decide) realHop_ok (realObs_ok ht)
  obtain ⟨B', hB'⟩ := C67_markov (e := realEnv lp) (realEnv_ok hlp) (realOn lp) realOps_laws (by decide) (by decide)
    realHop_ok fun o hm => (realObs_ok ht o hm).1
  refine ⟨max B B', fun cut hc st hst => ?_⟩
  refine Classical.axiom_of_choice (r := fun n (r : SpinState 1 1 String ℝ × List (ℝ × Outcome ℝ) ×
    (LatticeSite 1 1 → Tensor String NoSymmetry ℝ)) => markov (realEnv lp) realOps 2 cut (fun _ _ => realSite 1 2) realHop
      (([] : List (Observable 1 1 ℝ)).map Observable.term) ([realObs t].map Observable.term) (n + 1) false true realRandom st =
        .ok (r.1, r.2.1, some r.2.2)) fun n => ?_
  obtain ⟨⟨a, b, g⟩, h⟩ := hB cut (Or.inl ((le_max_left _ _).trans hc)) false true realRandom st (realConf 0) hst
    (realVisited n) (realVisited_visits lp n) (fun c' _ => by rw [realAmps]; exact realW_ne _)
    fun _ => ⟨fun h => by have := realVisited_length n; rw [h] at this; simp at this, by simp⟩
  rw [realVisited_length] at h
  obtain ⟨cs, -, -, -, -, -, -, -, -, k⟩ := hB' cut (Or.inl ((le_max_right _ _).trans hc)) (n + 1) false true realRandom st
    (realConf 0) hst _ _ _ h
  obtain ⟨g', rfl, -⟩ := k rfl
  exact ⟨(a, b, g'), h⟩

/-- C67 applies: the spin is zero in every fifth step, the gradient tends to the derivative of the energy
`((1 + ε)² - 4) / ((1 + ε)² + 4)`, which is `16 / 25`. -/
example : ∃ (lp : LapackQr ℝ) (t : ElementTable ℝ) (cut : ℕ) (st : SpinState 1 1 String ℝ)
    (st' : ℕ → SpinState 1 1 String ℝ) (results : ℕ → List (ℝ × Outcome ℝ))
    (g : ℕ → LatticeSite 1 1 → Tensor String NoSymmetry ℝ), findElement 2 1 signValue = .ok t ∧
    (∀ n, markov (realEnv lp) realOps 2 cut (fun _ _ => realSite 1 2) realHop (([] : List (Observable 1 1 ℝ)).map Observable.term)
      ([realObs t].map Observable.term) (n + 1) false true
      realRandom st = .ok (st' n, results n, some (g n))) ∧
    Tendsto (fun n => RCLike.re (siteInner (starRingEnd ℝ) id realNone realNone 2 ((0 : Fin 1), (0 : Fin 1)) (g n (0, 0))
      (realSite 1 0))) atTop (𝓝 (16 / 25)) := by
  obtain ⟨lp, hlp⟩ := exists_lapackQrOk (K := ℝ)
  obtain ⟨t, ht⟩ := realHam
  obtain ⟨st, h1, h2, h3⟩ := C64_set (e := realEnv lp) (d := 2) (realEnv_ok hlp) (realOn lp) [((0, 0), some 0)]
  have hst : HasSpins (realEnv lp) (fun _ _ => realSite 1 2) st (realConf 0) := ⟨h2, fun x => by
    rw [h3, Subsingleton.elim x (0, 0)]
    rfl⟩
  obtain ⟨B, hB⟩ := realReturns hlp ht
  obtain ⟨B', hB'⟩ := C67_gradient (e := realEnv lp) (realEnv_ok hlp) (realOn lp) realOps_laws (by decide) (by decide)
    realHop_ok (fun o hm => (realObs_ok ht o hm).1) (realObs_hermitian t) (fun c => by rw [realAmps]; exact realW_ne _)
    (by decide)
  obtain ⟨r, hr⟩ := hB (max B B') (le_max_left _ _) st hst
  obtain ⟨D, d1, d2⟩ := hB' (max B B') (Or.inl (le_max_right _ _)) false realRandom st (realConf 0) hst
    (fun n => (r n).1) (fun n => (r n).2.1) (fun n => (r n).2.2) hr realVisited realVisited_length
    (realVisited_visits lp) (fun c' => by
      obtain ⟨a, rfl⟩ : ∃ a, c' = fun _ => a := ⟨c' (0, 0), funext fun x => by rw [Subsingleton.elim x (0, 0)]⟩
      rw [realWeight]
      exact realFrequency a) (0, 0) (realSite 1 0)
    (realSite_edges 1 0) (fun ε => realSite (1 + ε) 2) realLine
  have hD : D = 16 / 25 := HasDerivAt.unique d2 (realEnergy t)
  rw [hD] at d1
  exact ⟨lp, t, _, st, fun n => (r n).1, fun n => (r n).2.1, fun n => (r n).2.2, ht, hr, d1⟩

end TAT
