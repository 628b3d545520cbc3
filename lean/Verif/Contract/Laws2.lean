import Verif.Contract.Laws

/-!
# Helper lemmas for the laws of contraction: transposed and reversed arguments
-/

set_option linter.unusedSectionVars false

namespace TAT

variable {ν σ α β : Type}

theorem sumOver_same_edges [DecidableEq ν] [AddCommMonoid α] {E E' : ν → List β} (F : (ν → β) → α)
    {ns : List ν} (h : ∀ n ∈ ns, E n = E' n) (w : ν → β) :
    sumOver E F ns w = sumOver E' F ns w := by
  induction ns generalizing w with
  | nil => rfl
  | cons n ns ih =>
    unfold sumOver
    rw [h n (by simp)]
    congr 1
    refine List.map_congr_left fun x _ => ?_
    exact ih (fun m hm => h m (by simp [hm])) _

theorem sumOver_smul [DecidableEq ν] [CommRing α] (E : ν → List β) (F : (ν → β) → α)
    (s : ℤ) (ns : List ν) (w : ν → β) :
    sumOver E (fun w => s • F w) ns w = s • sumOver E F ns w := by
  rw [sumOver_eq, sumOver_eq, List.smul_sum, List.map_map]
  rfl

theorem applySign_eq_smul [CommRing α] {s : ℤ} (hs : IsSign s) (x : α) : applySign s x = s • x := by
  rcases hs with rfl | rfl <;> simp [applySign]

section
variable [LinearOrder ν] [TatSym σ]

theorem amp_of_elem [CommRing α] {t t' : Tensor ν σ α} (h : Shaped t) (h' : Shaped t')
    (hv : ∀ p, ValidPos t' p ↔ ValidPos t p) {s : (ν → σ × ℕ) → ℤ} (hs : ∀ p, IsSign (s p))
    (he : ∀ p, ValidPos t p → elem t' p = (elem t p).map (applySign (s p))) (p : ν → σ × ℕ) :
    amp t' p = s p • amp t p := by
  by_cases hp : ValidPos t p
  · have := he p hp
    rw [amp_valid' h hp, amp_valid' h' ((hv p).2 hp)] at this
    rw [Option.map_some, Option.some.injEq] at this
    rw [this, applySign_eq_smul (hs p)]
  · rw [amp_zero' h hp, amp_zero' h' (fun hc => hp ((hv p).1 hc)), smul_zero]

/-- A contraction of tensors whose elements differ by signs. -/
theorem contracted_signs [CommRing α] {t1 t2 t1' t2' : Tensor ν σ α} {cs : List (ν × ν)}
    (hn : (cs.map Prod.fst).Nodup)
    (hm : ∀ n ∈ cs.map Prod.fst, mapOf t1' n = mapOf t1 n) {s1 s2 : (ν → σ × ℕ) → ℤ}
    (a1 : ∀ p, amp t1' p = s1 p • amp t1 p) (a2 : ∀ p, amp t2' p = s2 p • amp t2 p)
    {p : ν → σ × ℕ} {s : ℤ}
    (hs : ∀ w, (∀ n, n ∉ cs.map Prod.fst → w n = p n) →
      contractSign t1' t2' cs w (partner cs p w) * (s1 w * s2 (partner cs p w)) =
        s * contractSign t1 t2 cs w (partner cs p w)) :
    contracted t1' t2' cs p = s • contracted t1 t2 cs p := by
  unfold contracted
  rw [← sumOver_smul, sumOver_same_edges _ fun n hn => by rw [hm n hn]]
  refine sumOver_congr hn fun w _ hw => ?_
  rw [a1, a2, smul_smul, ← hs w hw, smul_mul_smul_comm, smul_smul]

theorem others_perm_names {A B : List ν} (h : A.Perm B) (K : List ν) :
    (others A K).Perm (others B K) := h.filter _

/-- Contracting transposed tensors. -/
theorem contracted_transpose [CommRing α] {t1 t2 t1' t2' : Tensor ν σ α} (h1 : Shaped t1)
    (h2 : Shaped t2) {cs : List (ν × ν)} (hp : Pairs t1.names t2.names cs)
    (hnd : (others t1.names (cs.map Prod.fst) ++ others t2.names (cs.map Prod.snd)).Nodup)
    (p1 : t1.names.Perm t1'.names) (p2 : t2.names.Perm t2'.names)
    (e1 : ∀ n ∈ t1.names, edgeOf t1' n = edgeOf t1 n)
    (a1 : ∀ p, amp t1' p = transposeSign t1.names t1'.names p • amp t1 p)
    (a2 : ∀ p, amp t2' p = transposeSign t2.names t2'.names p • amp t2 p)
    (p : ν → σ × ℕ) :
    contracted t1' t2' cs p = transposeSign
      (others t1.names (cs.map Prod.fst) ++ others t2.names (cs.map Prod.snd))
      (others t1'.names (cs.map Prod.fst) ++ others t2'.names (cs.map Prod.snd)) p •
      contracted t1 t2 cs p := by
  have hin : ∀ c ∈ cs, edgeOf t1' c.1 = edgeOf t1 c.1 := fun c hc => e1 _ (hp.sub1 c hc)
  refine contracted_signs hp.nodup1 (fun n hn => ?_) a1 a2 fun w hw => ?_
  · obtain ⟨c, hc, rfl⟩ := List.mem_map.1 hn
    show (edgeOf t1' c.1).map = (edgeOf t1 c.1).map
    rw [hin c hc]
  · unfold contractSign transposeSign
    by_cases hf : TatSym.isFermi σ = true
    swap
    · simp only [if_neg hf]; norm_num
    simp only [if_pos hf]
    rw [List.map_congr_left (g := fun c => if (edgeOf t1 c.1).arrow = false ∧ oddAt w c.1 = true
      then (-1 : ℤ) else 1) fun c hc => by rw [hin c hc]]
    set K1 := cs.map Prod.fst
    set K2 := cs.map Prod.snd
    set v := partner cs p w with hv
    have q1 := hp.split1 h1.nodup
    have q2 := hp.split2 h2.nodup
    have q1' := q1.trans ((others_perm_names p1 K1).append_right K1)
    have q2' := q2.trans ((others_perm_names p2 K2).append_right K2)
    have o1 := others_perm_names p1 K1
    have o2 := others_perm_names p2 K2
    have d1 : ∀ x ∈ others t1.names K1, x ∉ K1.reverse := fun x hx hc =>
      (mem_others.1 hx).2 (List.mem_reverse.1 hc)
    have d2 : ∀ x ∈ K2, x ∉ others t2.names K2 := fun x hx hc => (mem_others.1 hc).2 hx
    have f1 : exchangeOf (oddAt w) t1.names t1'.names *
        exchangeOf (oddAt w) t1'.names (others t1'.names K1 ++ K1.reverse) =
        exchangeOf (oddAt w) t1.names (others t1.names K1 ++ K1.reverse) *
        exchangeOf (oddAt p) (others t1.names K1) (others t1'.names K1) := by
      have r1 := (List.reverse_perm K1).symm
      rw [exchangeOf_mul _ p1 (p1.symm.trans (q1'.trans (r1.append_left _))),
        ← exchangeOf_mul (oddAt w) (q1.trans (r1.append_left _)) (o1.append_right K1.reverse),
        exchangeOf_append _ o1 (List.Perm.refl _) d1, exchangeOf_refl, mul_one]
      congr 1
      exact exchangeOf_congr (fun n hn => oddAt_congr (hw n (mem_others.1 hn).2)) _
    have f2 : exchangeOf (oddAt v) t2.names t2'.names *
        exchangeOf (oddAt v) t2'.names (K2 ++ others t2'.names K2) =
        exchangeOf (oddAt v) t2.names (K2 ++ others t2.names K2) *
        exchangeOf (oddAt p) (others t2.names K2) (others t2'.names K2) := by
      rw [exchangeOf_mul _ p2 (p2.symm.trans (q2'.trans List.perm_append_comm)),
        ← exchangeOf_mul (oddAt v) (q2.trans List.perm_append_comm) (o2.append_left K2),
        exchangeOf_append _ (List.Perm.refl _) o2 d2, exchangeOf_refl, one_mul]
      congr 1
      exact exchangeOf_congr (fun n hn => oddAt_congr (partner_free p w (mem_others.1 hn).2)) _
    have f3 : exchangeOf (oddAt p) (others t1.names K1 ++ others t2.names K2)
        (others t1'.names K1 ++ others t2'.names K2) =
        exchangeOf (oddAt p) (others t1.names K1) (others t1'.names K1) *
        exchangeOf (oddAt p) (others t2.names K2) (others t2'.names K2) :=
      exchangeOf_append _ o1 o2 fun n h h' => (List.nodup_append.1 hnd).2.2 n h n h' rfl
    rw [f3]
    linear_combination (cs.map fun c => if (edgeOf t1 c.1).arrow = false ∧ oddAt w c.1 = true
      then (-1 : ℤ) else 1).prod * (exchangeOf (oddAt v) t2.names t2'.names *
        exchangeOf (oddAt v) t2'.names (K2 ++ others t2'.names K2)) * f1 +
      (cs.map fun c => if (edgeOf t1 c.1).arrow = false ∧ oddAt w c.1 = true
      then (-1 : ℤ) else 1).prod * (exchangeOf (oddAt w) t1.names (others t1.names K1 ++ K1.reverse) *
        exchangeOf (oddAt p) (others t1.names K1) (others t1'.names K1)) * f2

/-- Contracting tensors of which contracted edges have been reversed, with the sign on one side. -/
theorem contracted_reverse [CommRing α] {t1 t2 t1' t2' : Tensor ν σ α} (h1 : Shaped t1)
    (h2 : Shaped t2) {cs : List (ν × ν)} (hp : Pairs t1.names t2.names cs)
    (n1 : t1'.names = t1.names) (n2 : t2'.names = t2.names) {R1 R2 : List ν} (b : Bool)
    (hR1 : ∀ n ∈ R1, n ∈ cs.map Prod.fst) (hR2 : ∀ n ∈ R2, n ∈ cs.map Prod.snd)
    (hR : ∀ c ∈ cs, c.1 ∈ R1 ↔ c.2 ∈ R2)
    (e1 : ∀ n ∈ t1.names, edgeOf t1' n = if n ∈ R1 then flipArrow (edgeOf t1 n) else edgeOf t1 n)
    (a1 : ∀ p, amp t1' p = reverseSign R1 b [] t1.names p • amp t1 p)
    (a2 : ∀ p, amp t2' p = reverseSign R2 (!b) [] t2.names p • amp t2 p) (p : ν → σ × ℕ) :
    contracted t1' t2' cs p = contracted t1 t2 cs p := by
  have hmap : ∀ n ∈ t1.names, mapOf t1' n = mapOf t1 n := by
    intro n hn
    show (edgeOf t1' n).map = (edgeOf t1 n).map
    rw [e1 n hn]
    unfold flipArrow
    split
    · split <;> rfl
    · rfl
  rw [contracted_signs (s := 1) hp.nodup1 (fun n hn => ?_) a1 a2 fun w hw => ?_, one_smul]
  · obtain ⟨c, hc, rfl⟩ := List.mem_map.1 hn
    exact hmap _ (hp.sub1 c hc)
  · unfold contractSign reverseSign
    rw [n1, n2]
    by_cases hf : TatSym.isFermi σ = true
    swap
    · simp only [if_neg hf]; norm_num
    simp only [if_pos hf]
    have key : ∀ (N K R : List ν) (odd : ν → Bool) (b : Bool), N.Nodup → K.Nodup →
        N.Perm (others N K ++ K) → (∀ n ∈ R, n ∈ K) →
        reverseOf odd (fun n => decide (n ∈ R) && marked b [] n) N =
        (K.map fun n => if n ∈ R ∧ b = true ∧ odd n = true then (-1 : ℤ) else 1).prod := by
      intro N K R odd b _ _ hperm hsub
      unfold reverseOf
      rw [(hperm.map _).prod_eq, List.map_append, List.prod_append]
      rw [List.prod_eq_one (l := List.map _ (others N K)), one_mul]
      · congr 1
        refine List.map_congr_left fun n _ => ?_
        cases b <;> by_cases hR : n ∈ R <;> by_cases ho : odd n = true <;> simp [marked, hR, ho]
      · intro x hx
        obtain ⟨n, hn, rfl⟩ := List.mem_map.1 hx
        rw [if_neg]
        rintro ⟨h, -⟩
        have : n ∈ R := by
          by_contra hc
          simp [hc] at h
        exact (mem_others.1 hn).2 (hsub n this)
    rw [key _ _ R1 _ b h1.nodup hp.nodup1 (hp.split1 h1.nodup) hR1,
      key _ _ R2 _ (!b) h2.nodup hp.nodup2 (hp.split2 h2.nodup) hR2, one_mul]
    rw [List.map_map, List.map_map, mul_assoc, ← List.prod_map_mul, ← List.prod_map_mul]
    congr 2
    refine List.map_congr_left fun c hc => ?_
    have ho : oddAt (partner cs p w) c.2 = oddAt w c.1 := by
      unfold oddAt
      rw [partner_common hp.nodup2 p w hc]
      exact TatSym.odd_neg _
    have he := e1 c.1 (hp.sub1 c hc)
    have hR := hR c hc
    simp only [Function.comp]
    rw [ho]
    by_cases hc1 : c.1 ∈ R1
    · have hc2 := hR.1 hc1
      rw [if_pos hc1] at he
      unfold flipArrow at he
      rw [if_pos hf] at he
      rw [he]
      cases b <;> rcases Bool.eq_false_or_eq_true (edgeOf t1 c.1).arrow with ha | ha <;>
        rcases Bool.eq_false_or_eq_true (oddAt w c.1) with hb | hb <;> simp [hc1, hc2, ha, hb]
    · have hc2 : c.2 ∉ R2 := fun h => hc1 (hR.2 h)
      rw [if_neg hc1] at he
      rw [he]
      simp [hc1, hc2]

end

end TAT
