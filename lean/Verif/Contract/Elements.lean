import Verif.Contract.Plan

/-!
# Signs and elements of the product
-/

set_option linter.unusedSectionVars false

namespace TAT

variable {ν σ α : Type} [LinearOrder ν] [TatSym σ]

/-! ## signs -/

theorem reversalSign_perm {l l' : List Bool} (h : l.Perm l') : reversalSign l = reversalSign l' := by
  induction h with
  | nil => rfl
  | cons x h ih => rw [reversalSign, reversalSign, ih, h.count_eq]
  | swap x y l =>
    simp only [reversalSign]
    cases x <;> cases y <;> simp
  | trans _ _ a b => exact a.trans b

theorem exchangeOf_symm (odd : ν → Bool) {A B : List ν} (h : A.Perm B) :
    exchangeOf odd B A = exchangeOf odd A B := by
  have h1 := exchangeOf_mul odd h h.symm
  rw [exchangeOf_refl] at h1
  have h2 := exchangeOf_sq odd A B
  calc exchangeOf odd B A = (exchangeOf odd A B * exchangeOf odd A B) * exchangeOf odd B A := by
        rw [h2, one_mul]
    _ = exchangeOf odd A B * (exchangeOf odd A B * exchangeOf odd B A) := by ring
    _ = exchangeOf odd A B := by rw [h1, mul_one]

theorem exchangeOf_reverse_both (odd : ν → Bool) {A B : List ν} (hA : A.Nodup) (h : A.Perm B) :
    exchangeOf odd A.reverse B.reverse = exchangeOf odd A B := by
  have hB := h.nodup_iff.1 hA
  have rA := (List.reverse_perm A)
  have rB := (List.reverse_perm B)
  rw [← exchangeOf_mul odd rA (h.trans rB.symm), ← exchangeOf_mul odd h rB.symm,
    exchangeOf_symm odd rA.symm, exchangeOf_reverse odd hA, exchangeOf_reverse odd hB,
    reversalSign_perm (h.map odd)]
  have : reversalSign (B.map odd) * reversalSign (B.map odd) = 1 := by
    rw [← exchangeOf_reverse odd hB]; exact exchangeOf_sq _ _ _
  calc reversalSign (B.map odd) * (exchangeOf odd A B * reversalSign (B.map odd))
      = exchangeOf odd A B * (reversalSign (B.map odd) * reversalSign (B.map odd)) := by ring
    _ = _ := by rw [this, mul_one]

/-- The order in which the pairs are given does not matter for the sign. -/
theorem contractSign_perm {t1 t2 : Tensor ν σ α} (h1 : t1.names.Nodup) (h2 : t2.names.Nodup)
    {cs cs' : List (ν × ν)} (hp : Pairs t1.names t2.names cs) (hcs : cs.Perm cs')
    {w1 w2 : ν → σ × ℕ} (ho : ∀ c ∈ cs, oddAt w1 c.1 = oddAt w2 c.2) :
    contractSign t1 t2 cs w1 w2 = contractSign t1 t2 cs' w1 w2 := by
  have hp' := hp.perm hcs.symm
  have g1 := hcs.map Prod.fst
  have g2 := hcs.map Prod.snd
  unfold contractSign
  split
  · rw [← others_congr (names := t1.names) g1, ← others_congr (names := t2.names) g2]
    have d1 : ∀ x ∈ others t1.names (cs.map Prod.fst), x ∉ (cs.map Prod.fst).reverse := by
      intro x hx hx'
      exact (mem_others.1 hx).2 (List.mem_reverse.1 hx')
    have d2 : ∀ x ∈ cs.map Prod.snd, x ∉ others t2.names (cs.map Prod.snd) := by
      intro x hx hx'
      exact (mem_others.1 hx').2 hx
    have r1 := (List.reverse_perm (cs.map Prod.fst)).symm
    have e1 : exchangeOf (oddAt w1) t1.names
          (others t1.names (cs.map Prod.fst) ++ (cs'.map Prod.fst).reverse) =
        exchangeOf (oddAt w1) t1.names
          (others t1.names (cs.map Prod.fst) ++ (cs.map Prod.fst).reverse) *
        exchangeOf (oddAt w1) (cs.map Prod.fst) (cs'.map Prod.fst) := by
      rw [← exchangeOf_mul (oddAt w1)
        ((hp.split1 h1).trans (r1.append_left _))
        (((r1.symm.trans g1).trans (List.reverse_perm _).symm).append_left _),
        exchangeOf_append _ (List.Perm.refl _) ((r1.symm.trans g1).trans (List.reverse_perm _).symm)
          d1, exchangeOf_refl, one_mul, exchangeOf_reverse_both _ hp.nodup1 g1]
    have e2 : exchangeOf (oddAt w2) t2.names
          (cs'.map Prod.snd ++ others t2.names (cs.map Prod.snd)) =
        exchangeOf (oddAt w2) t2.names
          (cs.map Prod.snd ++ others t2.names (cs.map Prod.snd)) *
        exchangeOf (oddAt w2) (cs.map Prod.snd) (cs'.map Prod.snd) := by
      rw [← exchangeOf_mul (oddAt w2)
        ((hp.split2 h2).trans List.perm_append_comm) (g2.append_right _),
        exchangeOf_append _ g2 (List.Perm.refl _) d2, exchangeOf_refl, mul_one]
    have e3 := exchangeOf_pairs hp.nodup1 hp.nodup2 hcs ho
    have e4 := exchangeOf_sq (oddAt w2) (cs.map Prod.snd) (cs'.map Prod.snd)
    rw [e1, e2, e3, (hcs.map fun c => if (edgeOf t1 c.1).arrow = false ∧ oddAt w1 c.1 = true
      then (-1 : ℤ) else 1).prod_eq]
    linear_combination (-(exchangeOf (oddAt w1) t1.names
          (others t1.names (cs.map Prod.fst) ++ (cs.map Prod.fst).reverse) *
        exchangeOf (oddAt w2) t2.names
          (cs.map Prod.snd ++ others t2.names (cs.map Prod.snd)) *
        (cs'.map fun c => if (edgeOf t1 c.1).arrow = false ∧ oddAt w1 c.1 = true
      then (-1 : ℤ) else 1).prod)) * e4
  · rfl

theorem contractSign_isSign (t1 t2 : Tensor ν σ α) (cs : List (ν × ν)) (w1 w2 : ν → σ × ℕ) :
    IsSign (contractSign t1 t2 cs w1 w2) := by
  unfold contractSign
  split
  · refine ((isSign_exchangeOf _ _ _).mul (isSign_exchangeOf _ _ _)).mul ?_
    induction cs with
    | nil => exact Or.inl rfl
    | cons c cs ih =>
      rw [List.map_cons, List.prod_cons]
      refine IsSign.mul ?_ ih
      split
      · exact Or.inr rfl
      · exact Or.inl rfl
  · exact Or.inl rfl

/-- The factor of a block as a sign. -/
def alphaSign (right1 right2 : Bool) (s : σ) : ℤ :=
  if TatSym.isFermi σ && (right2 ^^ !right1) && oddInt (TatSym.fermi s) then -1 else 1

theorem alphaOf_eq [CommRing α] (right1 right2 : Bool) (s : σ) (x : α) :
    alphaOf right1 right2 s * x = alphaSign right1 right2 s • x := by
  unfold alphaOf alphaSign
  split <;> simp

theorem oddCount_pairs {odd odd' : ν → Bool} {cs : List (ν × ν)}
    (ho : ∀ c ∈ cs, odd c.1 = odd' c.2) :
    oddCount odd (cs.map Prod.fst) = oddCount odd' (cs.map Prod.snd) := by
  unfold oddCount
  rw [List.map_map, List.map_map]
  congr 1
  exact List.map_congr_left ho

theorem keyOf_append (A B : List ν) (p : ν → σ × ℕ) : keyOf (A ++ B) p = keyOf A p ++ keyOf B p :=
  List.map_append

theorem oddCount_even {A B : List ν} {p : ν → σ × ℕ} (h0 : (keyOf (A ++ B) p).sum = 0) :
    oddCount (oddAt p) A % 2 = oddCount (oddAt p) B % 2 := by
  have h1 := odd_sum p (A ++ B)
  rw [h0, TatSym.fermi_zero] at h1
  have h2 : oddInt 0 = false := by decide
  rw [h2] at h1
  have h3 : oddCount (oddAt p) (A ++ B) = oddCount (oddAt p) A + oddCount (oddAt p) B := by
    unfold oddCount
    rw [List.map_append, List.count_append]
  rw [h3] at h1
  have h4 := of_decide_eq_false h1.symm
  omega

/-- The signs of both merges and of the product are together the sign of the contraction. -/
theorem signs_eq {t1 t2 : Tensor ν σ α} (h1 : Shaped t1) (h2 : Shaped t2) {cn : ContractNames ν}
    (hcn : cn.c1 ≠ cn.c2) {cs : List (ν × ν)} (hp : Pairs t1.names t2.names cs)
    (right1 right2 : Bool) (reversed2 : List ν) {w1 w2 : ν → σ × ℕ}
    (hv1 : (keyOf t1.names w1).sum = 0) (hv2 : (keyOf t2.names w2).sum = 0)
    (ho : ∀ c ∈ cs, oddAt w1 c.1 = oddAt w2 c.2) :
    alphaSign right1 right2 (keyOf (others t1.names (cs.map Prod.fst)) w1).sum *
    (opSign t1 (mergeArgs1 cn (reversedNames (others t1.names (cs.map Prod.fst)) false t1)
      (others t1.names (cs.map Prod.fst)) (cs.map Prod.fst) right1 []) w1 *
    opSign t2 (mergeArgs2 cn reversed2
      (others t2.names (cs.map Prod.snd)) (cs.map Prod.snd) right2 []) w2) =
    contractSign t1 t2 cs w1 w2 := by
  by_cases hf : TatSym.isFermi σ = true
  · have s1 := hp.split1 h1.nodup
    have s2 := hp.split2 h2.nodup
    rw [sign1 h1 hcn right1 s1 hf w1, sign2 h2 hcn reversed2 right2 s2 hf w2]
    unfold contractSign alphaSign
    rw [if_pos hf]
    set G1 := others t1.names (cs.map Prod.fst) with hG1
    set G2 := others t2.names (cs.map Prod.snd) with hG2
    have n1 := List.nodup_append.1 (s1.nodup_iff.1 h1.nodup)
    have n2 := List.nodup_append.1 (s2.nodup_iff.1 h2.nodup)
    have d1 : ∀ x ∈ G1, x ∉ cs.map Prod.fst := fun x hx hx' => n1.2.2 x hx x hx' rfl
    have d2 : ∀ x ∈ G2, x ∉ cs.map Prod.snd := fun x hx hx' => n2.2.2 x hx x hx' rfl
    have c1 : oddCount (oddAt w1) G1 % 2 = oddCount (oddAt w1) (cs.map Prod.fst) % 2 :=
      oddCount_even (by rw [← hv1]; exact ((s1.map _).sum_eq).symm)
    have c2 : oddCount (oddAt w2) G2 % 2 = oddCount (oddAt w2) (cs.map Prod.snd) % 2 :=
      oddCount_even (by rw [← hv2]; exact ((s2.map _).sum_eq).symm)
    have c3 := oddCount_pairs ho
    -- the first tensor
    have r1 := (List.reverse_perm (cs.map Prod.fst)).symm
    have e1 : exchangeOf (oddAt w1) t1.names (G1 ++ (cs.map Prod.fst).reverse) =
        exchangeOf (oddAt w1) t1.names (G1 ++ cs.map Prod.fst) *
        reversalSign ((cs.map Prod.fst).map (oddAt w1)) := by
      rw [← exchangeOf_mul (oddAt w1) s1 (r1.append_left _),
        exchangeOf_append _ (List.Perm.refl _) r1 d1, exchangeOf_refl, one_mul,
        exchangeOf_reverse _ hp.nodup1]
    have e2 : exchangeOf (oddAt w1) t1.names (cs.map Prod.fst ++ G1) =
        exchangeOf (oddAt w1) t1.names (G1 ++ cs.map Prod.fst) *
          (if oddCount (oddAt w1) G1 % 2 = 1 then -1 else 1) := by
      rw [← exchangeOf_mul (oddAt w1) s1 List.perm_append_comm,
        exchangeOf_swap _ n1.1 hp.nodup1 d1, neg_one_pow_sq c1]
    have e3 : exchangeOf (oddAt w2) t2.names (cs.map Prod.snd ++ G2) =
        exchangeOf (oddAt w2) t2.names (G2 ++ cs.map Prod.snd) *
          (if oddCount (oddAt w1) G1 % 2 = 1 then -1 else 1) := by
      rw [← exchangeOf_mul (oddAt w2) s2 List.perm_append_comm,
        exchangeOf_swap _ n2.1 hp.nodup2 d2, neg_one_pow_sq c2]
      have : oddCount (oddAt w2) G2 % 2 = oddCount (oddAt w1) G1 % 2 := by rw [c2, ← c3, c1]
      rw [this]
    rw [odd_sum, hf, Bool.true_and, e1, e3, List.map_map (g := fun n =>
      if (edgeOf t1 n).arrow = false ∧ oddAt w1 n = true then (-1 : ℤ) else 1)]
    have hc : ((fun n => if (edgeOf t1 n).arrow = false ∧ oddAt w1 n = true then (-1 : ℤ) else 1) ∘
        Prod.fst : ν × ν → ℤ) = fun c => if (edgeOf t1 c.1).arrow = false ∧ oddAt w1 c.1 = true
          then (-1 : ℤ) else 1 := rfl
    rw [hc]
    have p1 : (pairOf right1 G1 (cs.map Prod.fst)).flatten =
        if right1 then G1 ++ cs.map Prod.fst else cs.map Prod.fst ++ G1 := by
      unfold pairOf; cases right1 <;> simp
    have p2 : (pairOf right2 G2 (cs.map Prod.snd)).flatten =
        if right2 then G2 ++ cs.map Prod.snd else cs.map Prod.snd ++ G2 := by
      unfold pairOf; cases right2 <;> simp
    rw [p1, p2]
    by_cases hodd : oddCount (oddAt w1) G1 % 2 = 1
    · rw [if_pos hodd] at e2 e3
      rw [if_pos hodd, decide_eq_true hodd]
      cases right1 <;> cases right2 <;> simp only [Bool.false_eq_true, if_false, if_true,
        Bool.not_true, Bool.not_false, Bool.xor_true, Bool.true_xor, Bool.false_xor, Bool.xor_false,
        Bool.and_true, e2, e3] <;> ring
    · rw [if_neg hodd] at e2 e3
      rw [if_neg hodd, decide_eq_false hodd]
      cases right1 <;> cases right2 <;> simp only [Bool.false_eq_true, if_false, if_true,
        Bool.and_false, e2, e3] <;> ring
  · have hf' : TatSym.isFermi σ = false := by simpa using hf
    unfold opSign contractSign alphaSign
    simp [hf']

/-! ## elements -/

theorem applySign_smul [CommRing α] {s : ℤ} (h : IsSign s) (x : α) : applySign s x = s • x := by
  rcases h with rfl | rfl <;> simp [applySign]

theorem sumOver_mul_left {β : Type} [CommRing α] (E : ν → List β) (F : (ν → β) → α) (ns : List ν)
    (w : ν → β) (a : α) : a * sumOver E F ns w = sumOver E (fun w => a * F w) ns w := by
  rw [sumOver_eq, sumOver_eq, ← List.sum_map_mul_left]

theorem amp_valid' [Zero α] {t : Tensor ν σ α} (h : Shaped t) {p : ν → σ × ℕ} (hv : ValidPos t p) :
    elem t p = some (amp t p) := by
  obtain ⟨x, hx⟩ := Option.isSome_iff_exists.1 (h.elem_isSome hv)
  unfold amp
  rw [if_pos, hx]
  · rfl
  · refine ⟨fun y hy => ?_, hv.2⟩
    rw [zip_named' h] at hy
    obtain ⟨n, hn, rfl⟩ := List.mem_map.1 hy
    exact ((validPos_iff' h).1 hv).1 n hn

theorem amp_valid [Zero α] {t : Tensor ν σ α} (h : WF t) {p : ν → σ × ℕ} (hv : ValidPos t p) :
    elem t p = some (amp t p) :=
  amp_valid' h.shaped hv

theorem amp_zero' [Zero α] {t : Tensor ν σ α} (h : Shaped t) {p : ν → σ × ℕ} (hv : ¬ ValidPos t p) :
    amp t p = 0 := by
  unfold amp
  rw [if_neg]
  rintro ⟨h1, h2⟩
  refine hv ((validPos_iff' h).2 ⟨fun n hn => ?_, h2⟩)
  exact h1 (n, edgeOf t n) (by rw [zip_named' h]; exact List.mem_map.2 ⟨n, hn, rfl⟩)

theorem amp_zero [Zero α] {t : Tensor ν σ α} (h : WF t) {p : ν → σ × ℕ} (hv : ¬ ValidPos t p) :
    amp t p = 0 :=
  amp_zero' h.shaped hv

theorem partner_common {cs : List (ν × ν)} (h : (cs.map Prod.snd).Nodup) (p w : ν → σ × ℕ)
    {c : ν × ν} (hc : c ∈ cs) : partner cs p w c.2 = (-(w c.1).1, (w c.1).2) := by
  have := (findPair2_some h (n := c.2) (c := c)).2 ⟨hc, rfl⟩
  unfold findPair2 at this
  unfold partner
  rw [this]

theorem partner_free {cs : List (ν × ν)} (p w : ν → σ × ℕ) {n : ν} (hn : n ∉ cs.map Prod.snd) :
    partner cs p w n = p n := by
  have := findPair2_none (cs := cs) (n := n)
  rw [decide_eq_true hn, Option.isNone_iff_eq_none] at this
  unfold findPair2 at this
  unfold partner
  rw [this]

theorem partner_perm {cs cs' : List (ν × ν)} (h : (cs.map Prod.snd).Nodup) (hp : cs.Perm cs')
    (p w : ν → σ × ℕ) : partner cs p w = partner cs' p w := by
  have h' := (hp.map Prod.snd).nodup_iff.1 h
  funext n
  by_cases hn : n ∈ cs.map Prod.snd
  · obtain ⟨c, hc, rfl⟩ := List.mem_map.1 hn
    rw [partner_common h p w hc, partner_common h' p w (hp.mem_iff.1 hc)]
  · rw [partner_free p w hn, partner_free p w (fun h => hn ((hp.map _).mem_iff.2 h))]

theorem partner_sum {cs : List (ν × ν)} (h : (cs.map Prod.snd).Nodup) (p w : ν → σ × ℕ) :
    (keyOf (cs.map Prod.snd) (partner cs p w)).sum = -(keyOf (cs.map Prod.fst) w).sum := by
  unfold keyOf
  rw [List.map_map, List.map_map]
  have : ∀ l : List (ν × ν), (∀ c ∈ l, c ∈ cs) →
      (l.map ((fun n => (partner cs p w n).1) ∘ Prod.snd)).sum =
      -(l.map ((fun n => (w n).1) ∘ Prod.fst)).sum := by
    intro l
    induction l with
    | nil => intro _; simp
    | cons c l ih =>
      intro hl
      rw [List.map_cons, List.map_cons, List.sum_cons, List.sum_cons,
        ih fun d hd => hl d (by simp [hd]), neg_add]
      congr 1
      simp only [Function.comp]
      rw [partner_common h p w (hl c (by simp))]
  exact this cs fun _ h => h

theorem contracted_perm [CommRing α] {t1 t2 : Tensor ν σ α} (h1 : Shaped t1) (h2 : Shaped t2)
    {cs cs' : List (ν × ν)} (hp : Pairs t1.names t2.names cs) (hcs : cs.Perm cs')
    (p : ν → σ × ℕ) : contracted t1 t2 cs p = contracted t1 t2 cs' p := by
  unfold contracted
  rw [sumOver_perm (hp.perm hcs.symm).nodup1 (fun n hn => edgePositions_nodup (mapOf_sorted' h1 n (by
    obtain ⟨c, hc, rfl⟩ := List.mem_map.1 hn
    exact (hp.perm hcs.symm).sub1 c hc))) (hcs.map Prod.fst).symm]
  refine sumOver_congr hp.nodup1 fun w _ _ => ?_
  rw [← partner_perm hp.nodup2 hcs p w, contractSign_perm h1.nodup h2.nodup hp hcs]
  intro c hc
  unfold oddAt
  rw [partner_common hp.nodup2 p w hc]
  exact (odd_neg _).symm

/-- The merged common edges of both tensors are laid out alike. -/
def Aligned (t1 t2 : Tensor ν σ α) (cs : List (ν × ν)) : Prop :=
  (∀ s, mergedDim ((cs.map Prod.fst).map (mapOf t1)) s =
    mergedDim ((cs.map Prod.snd).map (mapOf t2)) (-s)) ∧
  ∀ w p, groupIdx (mapOf t1) (cs.map Prod.fst) w =
    groupIdx (mapOf t2) (cs.map Prod.snd) (partner cs p w)

theorem mergedDim_nil (s : σ) : mergedDim [] s = mergedDim ([] : List (List (σ × ℕ))) (-s) := by
  unfold mergedDim sameTotal combos choices
  by_cases h : s = 0
  · simp [h]
  · have h1 : ¬ (0 : σ) = s := fun e => h e.symm
    have h2 : ¬ (0 : σ) = -s := fun e => h (by rw [← neg_neg s, ← e, neg_zero])
    simp [h1, h2]

theorem negated_perm {m m' : List (σ × ℕ)} (h : OMap.Sorted m) (h' : OMap.Sorted m')
    (hf : ∀ s, OMap.find? m s = OMap.find? m' (-s)) :
    m'.Perm (m.map fun x => (-x.1, x.2)) := by
  have hn : (m.map fun x => (-x.1, x.2)).Nodup :=
    (List.Nodup.of_map _ h.nodup).map fun x y e => by
      simp only [Prod.mk.injEq, neg_inj] at e
      exact Prod.ext e.1 e.2
  rw [List.perm_ext_iff_of_nodup (List.Nodup.of_map _ h'.nodup) hn]
  intro x
  rw [List.mem_map]
  constructor
  · intro hx
    refine ⟨(-x.1, x.2), ?_, by simp⟩
    rw [← OMap.find?_iff_mem h.nodup, hf, neg_neg, OMap.find?_iff_mem h'.nodup]
    exact hx
  · rintro ⟨y, hy, rfl⟩
    have := (OMap.find?_iff_mem h.nodup (k := y.1) (v := y.2)).2 hy
    rw [hf] at this
    exact (OMap.find?_iff_mem h'.nodup).1 this

theorem choices_negated {ms ms' : List (List (σ × ℕ))}
    (h : List.Forall₂ (fun m m' => m'.Perm (m.map fun x => (-x.1, x.2))) ms ms') :
    (choices ms').Perm ((choices ms).map fun c => c.map fun x => (-x.1, x.2)) := by
  induction h with
  | nil => simp [choices]
  | cons h1 _ ih =>
    unfold choices
    rw [List.map_flatMap]
    refine (h1.flatMap_right _).trans ?_
    rw [List.flatMap_map]
    refine List.Perm.flatMap_left _ fun x _ => ?_
    refine (ih.map _).trans (List.Perm.of_eq ?_)
    rw [List.map_map, List.map_map]
    rfl

theorem neg_sum_map (c : List (σ × ℕ)) :
    ((c.map fun x => (-x.1, x.2)).map Prod.fst).sum = -(c.map Prod.fst).sum := by
  induction c with
  | nil => simp
  | cons x c ih => simp only [List.map_cons, List.sum_cons, ih, neg_add]

theorem mergedDim_negated {ms ms' : List (List (σ × ℕ))}
    (h : List.Forall₂ (fun m m' => m'.Perm (m.map fun x => (-x.1, x.2))) ms ms') (s : σ) :
    mergedDim ms s = mergedDim ms' (-s) := by
  unfold mergedDim sameTotal combos
  rw [((((choices_negated h).map _).filter _).map _).sum_eq, List.map_map, List.filter_map,
    List.filter_map, List.map_map, List.map_map]
  congr 1
  have e1 : ((fun c : List σ × ℕ => decide (c.1.sum = s)) ∘
      fun c : List (σ × ℕ) => (c.map Prod.fst, (c.map Prod.snd).prod)) =
      ((fun c : List σ × ℕ => decide (c.1.sum = -s)) ∘
      ((fun c : List (σ × ℕ) => (c.map Prod.fst, (c.map Prod.snd).prod)) ∘
        fun c => c.map fun x => (-x.1, x.2))) := by
    funext c
    simp only [Function.comp, neg_sum_map, neg_inj]
  rw [e1]
  refine List.map_congr_left fun c _ => ?_
  simp only [Function.comp, List.map_map]
  rfl

theorem takeWhile_all {β : Type} {f : β → Bool} {l : List β} (h : ∀ x ∈ l, f x = true) :
    l.takeWhile f = l := by
  induction l with
  | nil => rfl
  | cons x l ih =>
    rw [List.takeWhile_cons, if_pos (h x (by simp)), ih fun y hy => h y (by simp [hy])]

/-- With one combination for each total every combination starts at 0. -/
theorem mergeOffset_separated {maps : List (List (σ × ℕ))}
    (h : ∀ k ∈ (choices maps).map fun c => c.map Prod.fst, ∀ k' ∈ (choices maps).map fun c =>
      c.map Prod.fst, k.sum = k'.sum → k = k') (key : List σ) :
    mergeOffset maps key = if key ∈ (choices maps).map (fun c => c.map Prod.fst) then 0
      else mergedDim maps key.sum := by
  unfold mergeOffset prefixSize
  by_cases hk : key ∈ (choices maps).map fun c => c.map Prod.fst
  · rw [if_pos hk]
    have : ((sameTotal maps key.sum).takeWhile fun c => decide (c.1 ≠ key)) = [] := by
      have hall : ∀ c ∈ sameTotal maps key.sum, c.1 = key := by
        intro c hc
        unfold sameTotal at hc
        rw [List.mem_filter, decide_eq_true_iff] at hc
        refine h _ ?_ _ hk hc.2
        obtain ⟨d, hd, rfl⟩ := List.mem_map.1 hc.1
        exact List.mem_map.2 ⟨d, hd, rfl⟩
      cases hs : sameTotal maps key.sum with
      | nil => rfl
      | cons c l =>
        rw [List.takeWhile_cons, if_neg]
        simpa using hall c (by rw [hs]; simp)
    rw [this]; rfl
  · rw [if_neg hk, takeWhile_all]
    · rfl
    · intro c hc
      unfold sameTotal at hc
      refine decide_eq_true fun e => hk ?_
      obtain ⟨d, hd, rfl⟩ := List.mem_map.1 (List.mem_of_mem_filter hc)
      exact List.mem_map.2 ⟨d, hd, e⟩

theorem mem_choices_keys {fm : ν → List (σ × ℕ)} {ns : List ν} (hn : ns.Nodup) {k : List σ} :
    k ∈ ((choices (ns.map fm)).map fun c => c.map Prod.fst) ↔
      ∃ p : ν → σ, ns.map p = k ∧ ∀ n ∈ ns, p n ∈ OMap.keys (fm n) := by
  induction ns generalizing k with
  | nil => simp [choices, eq_comm]
  | cons n ns ih =>
    rw [List.nodup_cons] at hn
    simp only [List.map_cons, choices, List.map_flatMap, List.mem_flatMap, List.map_map]
    constructor
    · rintro ⟨x, hx, hk⟩
      obtain ⟨c, hc, rfl⟩ := List.mem_map.1 hk
      obtain ⟨p, hp1, hp2⟩ := (ih hn.2).1 (List.mem_map.2 ⟨c, hc, rfl⟩)
      refine ⟨fun m => if m = n then x.1 else p m, ?_, ?_⟩
      · simp only [Function.comp, List.map_cons, if_true]
        congr 1
        rw [← hp1]
        refine List.map_congr_left fun m hm => ?_
        rw [if_neg (fun e => hn.1 (by rw [← e]; exact hm))]
      · intro m hm
        dsimp only
        by_cases e : m = n
        · rw [if_pos e, e]; exact List.mem_map_of_mem hx
        · rw [if_neg e]
          exact hp2 m ((List.mem_cons.1 hm).resolve_left e)
    · rintro ⟨p, rfl, hp⟩
      obtain ⟨x, hx, hxp⟩ := List.mem_map.1 (hp n (by simp))
      refine ⟨x, hx, ?_⟩
      obtain ⟨c, hc, hce⟩ := List.mem_map.1 ((ih hn.2).2 ⟨p, rfl, fun m hm => hp m (by simp [hm])⟩)
      exact List.mem_map.2 ⟨c, hc, by simp only [Function.comp, List.map_cons, hxp, hce]⟩

theorem separated_choices {t : Tensor ν σ α} {ns : List ν} (hn : ns.Nodup) (h : Separated t ns) :
    ∀ k ∈ (choices (ns.map (mapOf t))).map fun c => c.map Prod.fst,
    ∀ k' ∈ (choices (ns.map (mapOf t))).map fun c => c.map Prod.fst, k.sum = k'.sum → k = k' := by
  intro k hk k' hk' hs
  obtain ⟨p, rfl, hp⟩ := (mem_choices_keys hn).1 hk
  obtain ⟨q, rfl, hq⟩ := (mem_choices_keys hn).1 hk'
  exact List.map_congr_left (h p q hp hq hs)

theorem matched_key {t1 t2 : Tensor ν σ α} {cs : List (ν × ν)} (hm : Matched t1 t2 cs) {c : ν × ν}
    (hc : c ∈ cs) (s : σ) : s ∈ OMap.keys (mapOf t1 c.1) ↔ -s ∈ OMap.keys (mapOf t2 c.2) := by
  rw [← not_iff_not, ← OMap.find?_eq_none, ← OMap.find?_eq_none, hm.maps c hc]

theorem Separated.flip {t1 t2 : Tensor ν σ α} {cs : List (ν × ν)}
    (hp : Pairs t1.names t2.names cs) (hm : Matched t1 t2 cs)
    (h : Separated t1 (cs.map Prod.fst)) : Separated t2 (cs.map Prod.snd) := by
  have key : ∀ f : ν → σ, (∀ n ∈ cs.map Prod.snd, f n ∈ OMap.keys (mapOf t2 n)) →
      ∃ g : ν → σ, (∀ c ∈ cs, g c.1 = -f c.2) ∧ ∀ n ∈ cs.map Prod.fst, g n ∈ OMap.keys (mapOf t1 n) := by
    intro f hf
    refine ⟨fun n => match cs.find? fun c => decide (c.1 = n) with
      | some c => -f c.2
      | none => 0, ?_, ?_⟩
    · intro c hc
      have := (findPair1_some hp.nodup1 (n := c.1) (c := c)).2 ⟨hc, rfl⟩
      unfold findPair1 at this
      dsimp only
      rw [this]
    · intro n hn
      obtain ⟨c, hc, rfl⟩ := List.mem_map.1 hn
      have := (findPair1_some hp.nodup1 (n := c.1) (c := c)).2 ⟨hc, rfl⟩
      unfold findPair1 at this
      dsimp only
      rw [this]
      dsimp only
      rw [matched_key hm hc, neg_neg]
      exact hf _ (List.mem_map_of_mem hc)
  intro p q h1 h2 hs n hn
  obtain ⟨p', a1, a2⟩ := key p h1
  obtain ⟨q', b1, b2⟩ := key q h2
  have hsum : ∀ f g : ν → σ, (∀ c ∈ cs, g c.1 = -f c.2) →
      ((cs.map Prod.fst).map g).sum = -((cs.map Prod.snd).map f).sum := by
    intro f g hg
    clear hs h1 h2 a1 a2 b1 b2 h hm hp key hn
    induction cs with
    | nil => simp
    | cons c cs ih =>
      simp only [List.map_cons, List.sum_cons]
      rw [ih fun d hd => hg d (by simp [hd]), hg c (by simp), neg_add]
  obtain ⟨c, hc, rfl⟩ := List.mem_map.1 hn
  have := h p' q' a2 b2 (by rw [hsum p p' a1, hsum q q' b1, hs]) c.1 (List.mem_map_of_mem hc)
  rw [a1 c hc, b1 c hc] at this
  exact neg_inj.1 this

theorem aligned_of {t1 t2 : Tensor ν σ α} (h1 : Shaped t1) (h2 : Shaped t2) {cs : List (ν × ν)}
    (hp : Pairs t1.names t2.names cs) (hm : Matched t1 t2 cs)
    (hl : Separated t1 (cs.map Prod.fst) ∨ ∀ s : σ, -s = s) : Aligned t1 t2 cs := by
  have hneg : List.Forall₂ (fun m m' => m'.Perm (m.map fun x => (-x.1, x.2)))
      ((cs.map Prod.fst).map (mapOf t1)) ((cs.map Prod.snd).map (mapOf t2)) := by
    rw [List.map_map, List.map_map, List.forall₂_map_left_iff, List.forall₂_map_right_iff,
      List.forall₂_same]
    intro c hc
    exact negated_perm (mapOf_sorted' h1 _ (hp.sub1 c hc)) (mapOf_sorted' h2 _ (hp.sub2 c hc))
      (hm.maps c hc)
  refine ⟨mergedDim_negated hneg, fun w p => ?_⟩
  have hi : idxOf (cs.map Prod.fst) w = idxOf (cs.map Prod.snd) (partner cs p w) := by
    unfold idxOf
    rw [List.map_map, List.map_map]
    exact List.map_congr_left fun c hc => by
      simp only [Function.comp]; rw [partner_common hp.nodup2 p w hc]
  have hd : ((cs.map Prod.fst).map fun n => dimM (mapOf t1 n) (w n).1) =
      (cs.map Prod.snd).map fun n => dimM (mapOf t2 n) (partner cs p w n).1 := by
    rw [List.map_map, List.map_map]
    exact List.map_congr_left fun c hc => by
      simp only [Function.comp]
      rw [partner_common hp.nodup2 p w hc]
      unfold dimM
      rw [hm.maps c hc]
  unfold groupIdx
  rw [hi, hd]
  congr 1
  rcases hl with hl | hl
  · rw [mergeOffset_separated (separated_choices hp.nodup1 hl),
      mergeOffset_separated (separated_choices hp.nodup2 (hl.flip hp hm)), partner_sum hp.nodup2,
      mergedDim_negated hneg]
    congr 1
    rw [mem_choices_keys hp.nodup1, mem_choices_keys hp.nodup2, eq_iff_iff]
    have e1 : (∃ f : ν → σ, (cs.map Prod.fst).map f = keyOf (cs.map Prod.fst) w ∧
        ∀ n ∈ cs.map Prod.fst, f n ∈ OMap.keys (mapOf t1 n)) ↔
        ∀ c ∈ cs, (w c.1).1 ∈ OMap.keys (mapOf t1 c.1) := by
      constructor
      · rintro ⟨f, e, hf⟩ c hc
        have := List.map_inj_left.1 e c.1 (List.mem_map_of_mem hc)
        rw [← this]
        exact hf _ (List.mem_map_of_mem hc)
      · intro hf
        refine ⟨fun n => (w n).1, rfl, fun n hn => ?_⟩
        obtain ⟨c, hc, rfl⟩ := List.mem_map.1 hn
        exact hf c hc
    have e2 : (∃ f : ν → σ, (cs.map Prod.snd).map f = keyOf (cs.map Prod.snd) (partner cs p w) ∧
        ∀ n ∈ cs.map Prod.snd, f n ∈ OMap.keys (mapOf t2 n)) ↔
        ∀ c ∈ cs, (partner cs p w c.2).1 ∈ OMap.keys (mapOf t2 c.2) := by
      constructor
      · rintro ⟨f, e, hf⟩ c hc
        have := List.map_inj_left.1 e c.2 (List.mem_map_of_mem hc)
        rw [← this]
        exact hf _ (List.mem_map_of_mem hc)
      · intro hf
        refine ⟨fun n => (partner cs p w n).1, rfl, fun n hn => ?_⟩
        obtain ⟨c, hc, rfl⟩ := List.mem_map.1 hn
        exact hf c hc
    rw [e1, e2]
    refine forall₂_congr fun c hc => ?_
    rw [partner_common hp.nodup2 p w hc, matched_key hm hc]
  · have hmap : ∀ c ∈ cs, mapOf t1 c.1 = mapOf t2 c.2 := by
      intro c hc
      refine OMap.ext (mapOf_sorted' h1 _ (hp.sub1 c hc)) (mapOf_sorted' h2 _ (hp.sub2 c hc)) fun s => ?_
      rw [hm.maps c hc, hl]
    have hmaps : (cs.map Prod.fst).map (mapOf t1) = (cs.map Prod.snd).map (mapOf t2) := by
      rw [List.map_map, List.map_map]
      exact List.map_congr_left hmap
    have hk : keyOf (cs.map Prod.fst) w = keyOf (cs.map Prod.snd) (partner cs p w) := by
      unfold keyOf
      rw [List.map_map, List.map_map]
      exact List.map_congr_left fun c hc => by
        simp only [Function.comp]; rw [partner_common hp.nodup2 p w hc, hl]
    rw [hmaps, hk]

end TAT
