import Verif.Square.MixGrad
import Verif.Square.GradReal

/-!
# A case of `C75_gradient_partial`: one site with real numbers

The amplitudes are 1 and 2 and the spin is flipped; the derivative of the energy is 16 / 25.
-/

namespace TAT

theorem realHop_term : HoppingTerm 1 1 2 flipValue [([0], [([1], 1)]), ([1], [([0], 1)])] [(0, 0)] [(0, 0)] where
  table := by
    simp [findHopping, elementLoop, nextIndex, recordHopping, flipValue, OMap.set, OMap.find?, List.replicate]
    decide
  sites := by decide +kernel
  nodup := List.nodup_singleton _
  symm := by
    rintro a b ⟨ha, -⟩ ⟨hb, -⟩ h
    obtain ⟨x, rfl⟩ := List.length_eq_one_iff.1 ha
    obtain ⟨y, rfl⟩ := List.length_eq_one_iff.1 hb
    show (if y = x then (0 : ℝ) else 1) ≠ 0
    rw [if_neg]
    · exact one_ne_zero
    · rintro rfl
      exact h (if_pos rfl)

theorem realHop_hops : HopsOk 1 1 2 (realHop.map Prod.fst) := by
  intro e he
  obtain rfl := List.mem_singleton.1 he
  refine ⟨_, _, realHop_term, Or.inl ⟨_, rfl⟩, fun a ha => ?_⟩
  obtain ⟨x, rfl⟩ := List.length_eq_one_iff.1 ha.1
  refine ⟨[1 - x], ⟨rfl, fun y hy => ?_⟩, ?_⟩
  · rw [List.mem_singleton.1 hy]
    omega
  · have := ha.2 x (by simp)
    show (if x = 1 - x then (0 : ℝ) else 1) ≠ 0
    rw [if_neg (by omega)]
    exact one_ne_zero

theorem realOps_norm : NormLaws realOps.toScalarOps where
  normSq_div a b := by
    show a / b * (a / b) = a * a / (b * b)
    rw [div_mul_div_comm]
  normSq_nonneg a := mul_self_nonneg a
  normSq_eq_zero _ := mul_self_eq_zero

theorem real_config (c : SpinConfig 1 1 2) : c = (fun _ => 0) ∨ c = fun _ => 1 := by
  have h : ∀ a : Fin 2, c (0, 0) = a → c = fun _ => a := fun a ha => funext fun x => by
    rw [Subsingleton.elim x (0, 0), ha]
  have : ∀ a : Fin 2, a = 0 ∨ a = 1 := by decide
  rcases this (c (0, 0)) with k | k
  · exact Or.inl (h _ k)
  · exact Or.inr (h _ k)

theorem real_uneven : Uneven realOps.toScalarOps realW (realHop.map Prod.fst) := by
  intro e he value xs h c c' hne _ _ _ _
  obtain rfl := List.mem_singleton.1 he
  obtain rfl : xs = [(0, 0)] := Outcome.ok.inj (h.sites.symm.trans realHop_term.sites)
  have r0 : rowLength [([0], [([1], (1 : ℝ))]), ([1], [([0], 1)])] (spinsAt (fun _ => 0 : SpinConfig 1 1 2) [(0, 0)]) = 1 :=
    rfl
  have r1 : rowLength [([0], [([1], (1 : ℝ))]), ([1], [([0], 1)])] (spinsAt (fun _ => 1 : SpinConfig 1 1 2) [(0, 0)]) = 1 :=
    rfl
  have w0 : realOps.normSq (realW fun _ => 0) = 1 := mul_one (1 : ℝ)
  have w1 : realOps.normSq (realW fun _ => 1) = 4 := by
    show realW _ * realW _ = 4
    rw [realW, if_neg (by decide)]
    norm_num
  rcases real_config c with rfl | rfl <;> rcases real_config c' with rfl | rfl
  · exact absurd rfl hne
  · show realOps.normSq _ * ((rowLength _ _ : ℕ) : ℝ) ≠ realOps.normSq _ * ((rowLength _ _ : ℕ) : ℝ)
    rw [r0, r1, w0, w1]
    norm_num
  · show realOps.normSq _ * ((rowLength _ _ : ℕ) : ℝ) ≠ realOps.normSq _ * ((rowLength _ _ : ℕ) : ℝ)
    rw [r0, r1, w0, w1]
    norm_num
  · exact absurd rfl hne

theorem real_joined (c' : SpinConfig 1 1 2) :
    Relation.ReflTransGen (Hops 1 1 2 (realHop.map Prod.fst)) (realConf 0) c' := by
  have h0 : realConf 0 = fun _ => 0 := rfl
  rcases real_config c' with rfl | rfl
  · exact .refl
  · refine .single ⟨_, List.mem_singleton.2 rfl, _, _, realHop_term, fun x hx => ?_, ?_⟩
    · exact absurd (by rw [Subsingleton.elim x (0, 0)]; exact List.mem_singleton_self _) hx
    · show (if (0 : ℕ) = 1 then (0 : ℝ) else 1) ≠ 0
      rw [if_neg (by decide)]
      exact one_ne_zero

/-- C75 applies: the probability that the gradient along the first element deviates from 16 / 25 by a hundredth goes
to zero with the number of steps. -/
example {lp : LapackQr ℝ} (hlp : LapackQrOk lp) {t : ElementTable ℝ} (ht : findElement 2 1 signValue = .ok t) :
    ∃ G : List (SpinConfig 1 1 2) → ℝ,
      (∃ B, ∀ cut, (B ≤ cut ∨ cut = 2 ^ 64 - 1) → ∀ (n : ℕ) (energy : Bool) (random : ℕ → ℕ → ℕ × ℝ)
        (st : SpinState 1 1 String ℝ), HasSpins (realEnv lp) (fun _ _ => realSite 1 2) st (realConf 0) →
        ∀ st' results g, markov (realEnv lp) realOps 2 cut (fun _ _ => realSite 1 2) realHop
          (([] : List (Observable 1 1 ℝ)).map Observable.term) ([realObs t].map Observable.term) n energy true random st =
            .ok (st', results, some g) →
        ∃ cs, cs.length = n ∧ Visits realOps.toScalarOps realW (realHop.map Prod.fst) random (realConf 0) 0 cs ∧
          RCLike.re (siteInner (starRingEnd ℝ) id realNone realNone 2 ((0 : Fin 1), (0 : Fin 1)) (g (0, 0))
            (realSite 1 0)) = G cs) ∧
      ∃ B, ∀ n, 0 < n → chainMean (sweepProb realOps.toScalarOps realW (realHop.map Prod.fst)) n
        (fun cs => if 1 / 100 ≤ |G cs - 16 / 25| then 1 else 0) (realConf 0) ≤ B / n := by
  obtain ⟨D, G, h1, h2, h3⟩ := C75_gradient_partial (e := realEnv lp) (obs := []) (hams := [realObs t]) (realEnv_ok hlp)
    (realOn lp) realOps_laws realOps_norm (fun z => by simp [realOps, RCLike.normSq_apply]) (by decide) (by decide)
    (by decide) realHop_hops (fun o hm => (realObs_ok ht o hm).1) (realObs_hermitian t)
    (fun c => by rw [realAmps]; exact realW_ne _) (by rw [realAmps]; exact real_uneven) (realConf 0) real_joined (0, 0)
    (realSite 1 0) (realSite_edges 1 0) (fun ε => realSite (1 + ε) 2) realLine
  obtain rfl : D = 16 / 25 := HasDerivAt.unique h1 (realEnergy t)
  rw [realAmps] at h2 h3
  exact ⟨G, h2, h3 _ (by norm_num)⟩

end TAT
