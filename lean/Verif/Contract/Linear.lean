import Verif.Contract.LawProps
import Verif.Scalar.Props
import Verif.TensorMisc.Conjugate
import Verif.Trace.Laws

/-!
# Helper lemmas: sums of products are linear and commute with conjugation
-/

set_option linter.unusedSectionVars false

namespace TAT

variable {ν σ α β : Type}

/-! ## sums over positions -/

section
variable [DecidableEq ν]

theorem sumOver_image [AddCommMonoid α] {E E' : ν → List β} (g : β → β) (F : (ν → β) → α)
    {ns : List ν} (h : ∀ n ∈ ns, (E' n).Perm ((E n).map g)) (w : ν → β) :
    sumOver E' F ns (fun n => g (w n)) = sumOver E (fun w => F fun n => g (w n)) ns w := by
  induction ns generalizing w with
  | nil => rfl
  | cons m ns ih =>
    unfold sumOver
    rw [((h m List.mem_cons_self).map _).sum_eq, List.map_map]
    congr 1
    refine List.map_congr_left fun x _ => ?_
    rw [Function.comp, ← ih (fun n hn => h n (List.mem_cons_of_mem _ hn))]
    congr 1
    funext n
    by_cases hn : n = m
    · subst hn; simp
    · simp [Function.update_of_ne hn]

theorem sumOver_hom {γ : Type} [AddCommMonoid α] [AddCommMonoid γ] (f : α →+ γ) (E : ν → List β)
    (F : (ν → β) → α) (ns : List ν) (w : ν → β) :
    f (sumOver E F ns w) = sumOver E (fun w => f (F w)) ns w := by
  rw [sumOver_eq, sumOver_eq, map_list_sum, List.map_map]
  rfl

theorem sumOver_add [AddCommMonoid α] (E : ν → List β) (F G : (ν → β) → α) (ns : List ν)
    (w : ν → β) :
    sumOver E (fun w => F w + G w) ns w = sumOver E F ns w + sumOver E G ns w := by
  rw [sumOver_eq, sumOver_eq, sumOver_eq, List.sum_map_add]

end

/-! ## signs -/

theorem reversalSign_append (l m : List Bool) :
    reversalSign (l ++ m) = reversalSign l * reversalSign m * (-1) ^ (l.count true * m.count true) := by
  induction l with
  | nil => simp [reversalSign]
  | cons b l ih =>
    rw [List.cons_append, reversalSign, ih, reversalSign, List.count_append]
    cases b
    · simp
    · simp only [if_true, List.count_cons_self, pow_add, add_mul, one_mul]
      ring

section
variable [LinearOrder ν] [TatSym σ]

theorem reversal_append (odd : ν → Bool) (A B : List ν) : reversalSign ((A ++ B).map odd) =
    reversalSign (A.map odd) * reversalSign (B.map odd) * (-1) ^ (oddCount odd A * oddCount odd B) := by
  rw [List.map_append, reversalSign_append]
  rfl

theorem isSign_reversal (l : List Bool) : IsSign (reversalSign l) := by
  have := reversalSign_sq l
  rcases mul_self_eq_one_iff.1 this with h | h
  · exact Or.inl h
  · exact Or.inr h

theorem isSign_conj (names : List ν) (p : ν → σ × ℕ) : IsSign (conjSign names p) := by
  unfold conjSign
  split
  · exact isSign_reversal _
  · exact Or.inl rfl

/-- A tensor together with its conjugate. -/
structure IsConj [CommRing α] (conj : α →+* α) (t c : Tensor ν σ α) : Prop where
  wf : WF c
  names : c.names = t.names
  arrows : ∀ n ∈ t.names, (edgeOf c n).arrow =
    if TatSym.isFermi σ then !(edgeOf t n).arrow else (edgeOf t n).arrow
  maps : ∀ n ∈ t.names, ∀ s, OMap.find? (mapOf c n) (-s) = OMap.find? (mapOf t n) s
  amps : ∀ p, amp c (negPos p) = conjSign t.names p • conj (amp t p)

theorem isConj_of [CommRing α] {junk : List σ → ℕ → α} {conj : α →+* α} {isReal : Bool}
    (hreal : isReal = true → ∀ x, conj x = x) {t c : Tensor ν σ α} (h : WF t)
    (hc : conjugate junk conj isReal t = .ok c) : IsConj conj t c := by
  obtain ⟨r, e1, e2, e3, e4, e5, e6, e7⟩ := C26_conjugate junk conj isReal hreal h
  rw [hc, Outcome.ok.injEq] at e1
  subst e1
  refine ⟨e2, e3, e4, e5, fun p => ?_⟩
  by_cases hv : ValidPos t p
  · have := e7 p hv
    rw [amp_valid' h.shaped hv, amp_valid' e2.shaped ((e6 p).2 hv), Option.map_some,
      Option.some.injEq] at this
    rw [this, applySign_eq_smul (isSign_conj _ _)]
  · rw [amp_zero' h.shaped hv, amp_zero' e2.shaped fun hh => hv ((e6 p).1 hh), map_zero, smul_zero]

theorem conj_positions [CommRing α] {conj : α →+* α} {t c : Tensor ν σ α} (h : WF t)
    (hc : IsConj conj t c) {n : ν} (hn : n ∈ t.names) :
    (edgePositions (mapOf c n)).Perm
      ((edgePositions (mapOf t n)).map fun x => (-x.1, x.2)) := by
  have s1 := mapOf_sorted hc.wf n (hc.names ▸ hn)
  have s2 := mapOf_sorted h n hn
  have hinj : Function.Injective fun x : σ × ℕ => (-x.1, x.2) := by
    rintro ⟨a, b⟩ ⟨c, d⟩ he
    simp only [Prod.mk.injEq, neg_inj] at he
    rw [he.1, he.2]
  refine (List.perm_ext_iff_of_nodup (edgePositions_nodup s1) ((edgePositions_nodup s2).map hinj)).2
    fun x => ?_
  have hd : ∀ s, dimM (mapOf c n) (-s) = dimM (mapOf t n) s := fun s => by
    unfold dimM; rw [hc.maps n hn]
  rw [mem_edgePositions s1, List.mem_map]
  constructor
  · intro hx
    refine ⟨(-x.1, x.2), (mem_edgePositions s2).2 ?_, by simp⟩
    rw [← hd, neg_neg]; exact hx
  · rintro ⟨y, hy, rfl⟩
    rw [hd]
    exact (mem_edgePositions s2).1 hy

theorem partner_negPos (cs : List (ν × ν)) (p w : ν → σ × ℕ) :
    partner cs (negPos p) (negPos w) = negPos (partner cs p w) := by
  funext n
  unfold partner negPos
  split <;> rename_i h <;> simp [h]

/-- The sign of a contraction of conjugates. -/
theorem conj_sign [CommRing α] {conj : α →+* α} {t1 t2 c1 c2 : Tensor ν σ α}
    (h1 : Shaped t1) (h2 : Shaped t2) (hc1 : IsConj conj t1 c1) (hc2 : IsConj conj t2 c2)
    {cs : List (ν × ν)} (hp : Pairs t1.names t2.names cs) {p w : ν → σ × ℕ}
    (hw : ∀ n, n ∉ cs.map Prod.fst → w n = p n)
    (v1 : ValidPos t1 w) (v2 : ValidPos t2 (partner cs p w)) :
    contractSign c1 c2 cs (negPos w) (negPos (partner cs p w)) *
      (conjSign t1.names w * conjSign t2.names (partner cs p w)) =
    conjSign (others t1.names (cs.map Prod.fst) ++ others t2.names (cs.map Prod.snd)) p *
      contractSign t1 t2 cs w (partner cs p w) := by
  unfold contractSign conjSign
  by_cases hf : TatSym.isFermi σ = true
  swap
  · simp [hf]
  simp only [if_pos hf]
  rw [hc1.names, hc2.names, oddAt_negPos, oddAt_negPos]
  set G1 := others t1.names (cs.map Prod.fst) with hG1
  set G2 := others t2.names (cs.map Prod.snd) with hG2
  set v := partner cs p w with hv
  have ho : ∀ c ∈ cs, oddAt w c.1 = oddAt v c.2 := by
    intro c hc
    unfold oddAt
    rw [hv, partner_common hp.nodup2 p w hc]
    exact (TatSym.odd_neg _).symm
  have s1 := hp.split1 h1.nodup
  have s2 := hp.split2 h2.nodup
  have c1' : oddCount (oddAt w) G1 % 2 = oddCount (oddAt w) (cs.map Prod.fst) % 2 :=
    oddCount_even (by rw [← v1.2]; exact ((s1.map _).sum_eq).symm)
  have c2' : oddCount (oddAt v) G2 % 2 = oddCount (oddAt v) (cs.map Prod.snd) % 2 :=
    oddCount_even (by rw [← v2.2]; exact ((s2.map _).sum_eq).symm)
  have c3 := oddCount_pairs ho
  have hK : (cs.map Prod.snd).map (oddAt v) = (cs.map Prod.fst).map (oddAt w) := by
    rw [List.map_map, List.map_map]
    exact (List.map_congr_left fun c hc => (ho c hc)).symm
  have g1 : G1.map (oddAt w) = G1.map (oddAt p) := List.map_congr_left fun n hn => by
    unfold oddAt
    rw [hw n (mem_others.1 hn).2]
  have g2 : G2.map (oddAt v) = G2.map (oddAt p) := List.map_congr_left fun n hn => by
    unfold oddAt
    rw [hv, partner_free _ _ (mem_others.1 hn).2]
  set k : ℤ := if oddCount (oddAt w) (cs.map Prod.fst) % 2 = 1 then -1 else 1 with hk
  have hkk : k * k = 1 := by rw [hk]; split <;> rfl
  have kw : ∀ a b : ℕ, a % 2 = oddCount (oddAt w) (cs.map Prod.fst) % 2 →
      b % 2 = oddCount (oddAt w) (cs.map Prod.fst) % 2 → (-1 : ℤ) ^ (a * b) = k := by
    intro a b hab hb
    rw [neg_one_pow_sq (hab.trans hb.symm), hk, hab]
  have e1 : reversalSign (t1.names.map (oddAt w)) =
      reversalSign (G1.map (oddAt p)) * reversalSign ((cs.map Prod.fst).map (oddAt w)) * k := by
    rw [reversalSign_perm (s1.map (oddAt w)), reversal_append, kw _ _ c1' rfl, g1]
  have e2 : reversalSign (t2.names.map (oddAt v)) =
      reversalSign (G2.map (oddAt p)) * reversalSign ((cs.map Prod.fst).map (oddAt w)) * k := by
    rw [reversalSign_perm (s2.map (oddAt v)), reversal_append,
      kw _ _ (c2'.trans (by rw [c3])) (by rw [c3]), g2, hK]
  have e3 : reversalSign ((G1 ++ G2).map (oddAt p)) =
      reversalSign (G1.map (oddAt p)) * reversalSign (G2.map (oddAt p)) * k := by
    rw [reversal_append]
    unfold oddCount at c1' c2' c3 kw ⊢
    rw [← g1, ← g2, kw _ _ c1' (c2'.trans (by rw [c3]))]
  have e4 : (cs.map fun c => if (edgeOf c1 c.1).arrow = false ∧ oddAt w c.1 = true then
        (-1 : ℤ) else 1).prod =
      (cs.map fun c => if (edgeOf t1 c.1).arrow = false ∧ oddAt w c.1 = true then
        (-1 : ℤ) else 1).prod * k := by
    have hk' : k = (-1) ^ oddCount (oddAt w) (cs.map Prod.fst) := by
      rw [hk]
      split
      · rename_i ho; rw [Odd.neg_one_pow (Nat.odd_iff.2 ho)]
      · rename_i ho; rw [Even.neg_one_pow (Nat.even_iff.2 (by omega))]
    rw [hk', oddCount]
    have hsub := hp.sub1
    clear_value k v G1 G2
    clear hk' kw hkk e1 e2 e3 hk hK c1' c2' c3 s1 s2 g1 g2 ho hp hw hv v2 hG1 hG2
    induction cs with
    | nil => simp
    | cons c cs ih =>
      have hsub' := fun d hd => hsub d (List.mem_cons_of_mem _ hd)
      have hc := hc1.arrows c.1 (hsub c List.mem_cons_self)
      rw [if_pos hf] at hc
      rw [List.map_cons, List.prod_cons, ih hsub', List.map_cons, List.prod_cons, List.map_cons,
        List.map_cons, hc]
      cases hO : oddAt w c.1
      · simp
      · rw [List.count_cons_self]
        cases (edgeOf t1 c.1).arrow <;> simp [pow_succ]
  rw [e1, e2, e3, e4]
  have q := reversalSign_sq ((cs.map Prod.fst).map (oddAt w))
  generalize reversalSign ((cs.map Prod.fst).map (oddAt w)) = x at *
  linear_combination (exchangeOf (oddAt w) t1.names (G1 ++ (cs.map Prod.fst).reverse) *
    exchangeOf (oddAt v) t2.names (cs.map Prod.snd ++ G2) *
    (cs.map fun c => if (edgeOf t1 c.1).arrow = false ∧ oddAt w c.1 = true then
        (-1 : ℤ) else 1).prod * k * reversalSign (G1.map (oddAt p)) *
    reversalSign (G2.map (oddAt p))) * (k * k * q + hkk)

theorem contracted_conj [CommRing α] {conj : α →+* α} {t1 t2 c1 c2 : Tensor ν σ α}
    (h1 : WF t1) (h2 : WF t2) (hc1 : IsConj conj t1 c1) (hc2 : IsConj conj t2 c2)
    {cs : List (ν × ν)} (hp : Pairs t1.names t2.names cs) (p : ν → σ × ℕ) :
    contracted c1 c2 cs (negPos p) =
      conjSign (others t1.names (cs.map Prod.fst) ++ others t2.names (cs.map Prod.snd)) p •
        conj (contracted t1 t2 cs p) := by
  unfold contracted
  rw [show conj (sumOver (fun n => edgePositions (mapOf t1 n)) _ _ p) = _ from
    sumOver_hom conj.toAddMonoidHom _ _ _ _, ← sumOver_smul]
  rw [show negPos p = fun n => (fun x : σ × ℕ => (-x.1, x.2)) (p n) from rfl,
    sumOver_image (E := fun n => edgePositions (mapOf t1 n)) _ _ fun n hn =>
      conj_positions h1 hc1 (by
        obtain ⟨c, hc, rfl⟩ := List.mem_map.1 hn
        exact hp.sub1 c hc)]
  refine sumOver_congr hp.nodup1 fun w _ hw => ?_
  show contractSign c1 c2 cs (negPos w) (partner cs (negPos p) (negPos w)) •
      (amp c1 (negPos w) * amp c2 (partner cs (negPos p) (negPos w))) = _ • conj _
  rw [partner_negPos, hc1.amps, hc2.amps, map_zsmul, map_mul, smul_mul_smul_comm, smul_smul, smul_smul]
  by_cases v1 : ValidPos t1 w
  · by_cases v2 : ValidPos t2 (partner cs p w)
    · rw [conj_sign h1.shaped h2.shaped hc1 hc2 hp hw v1 v2]
    · rw [amp_zero' h2.shaped v2]; simp
  · rw [amp_zero' h1.shaped v1]; simp

/-! ## sums -/

/-- `s` is `x + e * y`, where `y` has the same names in the same order. -/
structure IsSum [CommRing α] (e : α) (x y s : Tensor ν σ α) : Prop where
  wf : WF s
  names : s.names = x.names
  names' : y.names = x.names
  arrows : ∀ n ∈ x.names, (edgeOf s n).arrow = (edgeOf x n).arrow
  amps : ∀ p, amp s p = amp x p + e * amp y p

theorem valueAt_amp [Zero α] {t : Tensor ν σ α} (h : Shaped t) (p : ν → σ × ℕ) :
    (valueAt t p).getD 0 = amp t p := by
  unfold valueAt
  split
  · rename_i hv; rw [amp_valid' h hv]; rfl
  · rename_i hv; rw [amp_zero' h hv]; rfl

theorem combineElem_eq [AddCommMonoid α] {op : α → α → α} (h0 : op 0 0 = 0) (x y : Option α) :
    combineElem op x y = op (x.getD 0) (y.getD 0) := by
  cases x <;> cases y <;> simp [combineElem, h0]

theorem option_getD_map {f : α → β} {a : α} {b : β} (h : f a = b) (x : Option α) :
    (x.map f).getD b = f (x.getD a) := by
  cases x <;> simp [h]

/-- What the library's sum and difference compute. -/
theorem sum_spec [CommRing α] (env : Env σ α) (junk : List σ → ℕ → α) {op : α → α → α} {e : α}
    (hop : ∀ a b, op a b = a + e * b) {x y : Tensor ν σ α} (hx : WF x) (hy : WF y)
    (hp : y.names.Perm x.names) (hc : ∀ n ∈ x.names, CompatibleAt x y n) :
    ∃ s, scalarOp env junk id id op x y = .ok s ∧ WF s ∧ s.names = x.names ∧
      (∀ n ∈ x.names, (edgeOf s n).arrow = (edgeOf x n).arrow) ∧
      ∀ p, amp s p = amp x p + e * (transposeSign y.names x.names p • amp y p) := by
  obtain ⟨s, e1, e2, e3, e4, e5, e6⟩ := C24_binary env junk id id op hx hy hp hc
  refine ⟨s, e1, e2, e3, e4, fun p => ?_⟩
  by_cases hv : ValidPos s p
  · have := e6 p hv
    rw [amp_valid' e2.shaped hv, Option.some.injEq] at this
    have hy' := option_getD_map (a := (0 : α)) (b := 0)
      (f := fun z => id (applySign (transposeSign y.names x.names p) z)) (by simp [applySign])
      (valueAt y p)
    rw [this, combineElem_eq (by rw [hop]; simp), hop, Option.map_id, id, valueAt_amp hx.shaped, hy',
      valueAt_amp hy.shaped, id, applySign_eq_smul (isSign_transposeSign _ _ p)]
  · rw [amp_zero' e2.shaped hv, amp_zero' hx.shaped, amp_zero' hy.shaped]
    · simp
    · intro h
      have h' := (validPos_iff' hy.shaped).1 h
      refine hv ((e5 p).2 ⟨fun n hn => Or.inr (h'.1 n (hp.mem_iff.2 hn)), ?_⟩)
      rw [← h'.2]
      exact ((hp.map _).sum_eq).symm
    · intro h
      have h' := (validPos_iff' hx.shaped).1 h
      exact hv ((e5 p).2 ⟨fun n hn => Or.inl (h'.1 n hn), h'.2⟩)

theorem contracted_enlarge [CommRing α] {t1 t2 : Tensor ν σ α} (h1 : Shaped t1) {cs : List (ν × ν)}
    (hn : (cs.map Prod.fst).Nodup) (hs : ∀ c ∈ cs, c.1 ∈ t1.names) {U : ν → List (σ × ℕ)}
    (hU : ∀ n ∈ cs.map Prod.fst, (U n).Nodup)
    (hsub : ∀ n ∈ cs.map Prod.fst, ∀ x ∈ edgePositions (mapOf t1 n), x ∈ U n) (p : ν → σ × ℕ) :
    contracted t1 t2 cs p = sumOver U
      (fun w => contractSign t1 t2 cs w (partner cs p w) • (amp t1 w * amp t2 (partner cs p w)))
      (cs.map Prod.fst) p := by
  have hin : ∀ n ∈ cs.map Prod.fst, n ∈ t1.names := by
    intro n hn
    obtain ⟨c, hc, rfl⟩ := List.mem_map.1 hn
    exact hs c hc
  refine (sumOver_restrict hn hU (fun n h => edgePositions_nodup (mapOf_sorted' h1 n (hin n h))) hsub
    ?_).symm
  rintro w - - ⟨n, hn', hw⟩
  rw [amp_zero' h1, zero_mul, smul_zero]
  intro hv
  exact hw ((mem_edgePositions (mapOf_sorted' h1 n (hin n hn'))).2
    (((validPos_iff' h1).1 hv).1 n (hin n hn')))

theorem contracted_add_left [CommRing α] {e : α} {x y s t : Tensor ν σ α} (hx : Shaped x)
    (hy : Shaped y) (h : IsSum e x y s) {cs : List (ν × ν)} (hp : Pairs x.names t.names cs)
    (ha : TatSym.isFermi σ = true → ∀ c ∈ cs, (edgeOf y c.1).arrow = (edgeOf x c.1).arrow)
    (p : ν → σ × ℕ) :
    contracted s t cs p = contracted x t cs p + e * contracted y t cs p := by
  let U : ν → List (σ × ℕ) := fun n =>
    (edgePositions (mapOf s n) ++ edgePositions (mapOf x n) ++ edgePositions (mapOf y n)).dedup
  have hU : ∀ n ∈ cs.map Prod.fst, (U n).Nodup := fun n _ => List.nodup_dedup _
  rw [contracted_enlarge h.wf.shaped hp.nodup1 (by rw [h.names]; exact hp.sub1) hU
      (fun n _ z hz => List.mem_dedup.2 (List.mem_append_left _ (List.mem_append_left _ hz))),
    contracted_enlarge hx hp.nodup1 hp.sub1 hU
      (fun n _ z hz => List.mem_dedup.2 (List.mem_append_left _ (List.mem_append_right _ hz))),
    contracted_enlarge hy hp.nodup1 (by rw [h.names']; exact hp.sub1) hU
      (fun n _ z hz => List.mem_dedup.2 (List.mem_append_right _ hz)),
    sumOver_mul_left, ← sumOver_add]
  refine sumOver_congr hp.nodup1 fun w _ _ => ?_
  have sg : ∀ z : Tensor ν σ α, z.names = x.names → (TatSym.isFermi σ = true → ∀ c ∈ cs,
      (edgeOf z c.1).arrow = (edgeOf x c.1).arrow) →
      contractSign z t cs w (partner cs p w) = contractSign x t cs w (partner cs p w) := by
    intro z hz hz'
    unfold contractSign
    by_cases hf : TatSym.isFermi σ = true
    · rw [if_pos hf, if_pos hf, hz]
      congr 2
      exact List.map_congr_left fun c hc => by rw [hz' hf c hc]
    · rw [if_neg hf, if_neg hf]
  rw [sg s h.names fun _ c hc => h.arrows _ (hp.sub1 c hc), sg y h.names' ha, h.amps, add_mul,
    smul_add, mul_smul_comm, mul_assoc]

theorem contracted_add_right [CommRing α] {e : α} {x y s t : Tensor ν σ α} (h : IsSum e x y s)
    (cs : List (ν × ν)) (p : ν → σ × ℕ) :
    contracted t s cs p = contracted t x cs p + e * contracted t y cs p := by
  unfold contracted
  rw [sumOver_mul_left, ← sumOver_add]
  congr 1
  funext w
  have sg : ∀ z : Tensor ν σ α, z.names = x.names →
      contractSign t z cs w (partner cs p w) = contractSign t x cs w (partner cs p w) := by
    intro z hz
    unfold contractSign
    rw [hz]
  rw [sg s h.names, sg y h.names', h.amps, mul_add, smul_add, mul_left_comm, mul_smul_comm]

/-! ## multiples -/

theorem amp_mapTensor [Zero α] {f : α → α} (h0 : f 0 = 0) (t : Tensor ν σ α) (p : ν → σ × ℕ) :
    amp (mapTensor f t) p = f (amp t p) := by
  unfold amp
  rw [elem_mapTensor]
  change (if (∀ x ∈ t.names.zip t.core.edges, (p x.1).2 < dimOf x.2 (p x.1).1) ∧
    (keyOf t.names p).sum = 0 then _ else _) = _
  by_cases h : (∀ x ∈ t.names.zip t.core.edges, (p x.1).2 < dimOf x.2 (p x.1).1) ∧
    (keyOf t.names p).sum = 0
  · rw [if_pos h, if_pos h]
    exact option_getD_map h0 _
  · rw [if_neg h, if_neg h]
    exact h0.symm

theorem contracted_scale [CommRing α] (a b : α) (t1 t2 : Tensor ν σ α) (cs : List (ν × ν))
    (p : ν → σ × ℕ) :
    contracted (mapTensor (a * ·) t1) (mapTensor (b * ·) t2) cs p = a * b * contracted t1 t2 cs p := by
  unfold contracted
  rw [sumOver_mul_left]
  show sumOver (fun n => edgePositions (mapOf t1 n)) _ _ p = _
  congr 1
  funext w
  rw [amp_mapTensor (mul_zero a), amp_mapTensor (mul_zero b)]
  show contractSign t1 t2 cs w _ • _ = _
  rw [mul_smul_comm]
  congr 1
  ring

/-! ## traces -/

theorem pairs_perm (t : Tensor ν σ α) (ps : List (ν × ν)) :
    (pairNames ps).Perm ((ps.map (outOf t)).reverse ++ ps.map (inOf t)) := by
  refine List.Perm.trans ?_ ((List.reverse_perm _).symm.append_right _)
  induction ps with
  | nil => exact List.Perm.nil
  | cons c ps ih =>
    rw [pairNames_cons, List.map_cons, List.map_cons, List.cons_append]
    have : (outOf t c :: (ps.map (outOf t) ++ inOf t c :: ps.map (inOf t))).Perm
        (outOf t c :: inOf t c :: pairNames ps) :=
      (List.perm_middle.trans (ih.symm.cons _)).cons _
    refine List.Perm.trans ?_ this.symm
    unfold outOf inOf
    split
    · exact List.Perm.refl _
    · exact List.Perm.swap _ _ _

theorem oddCount_pairNames {ps : List (ν × ν)} {w : ν → σ × ℕ} (hd : Diagonal ps w) :
    oddCount (oddAt w) (pairNames ps) % 2 = 0 := by
  induction ps with
  | nil => rfl
  | cons c ps ih =>
    have h1 := ih fun d h => hd d (List.mem_cons_of_mem _ h)
    have h2 : oddAt w c.2 = oddAt w c.1 := by
      have := (hd c List.mem_cons_self).1
      unfold oddAt
      rw [← neg_eq_of_add_eq_zero_right this]
      exact TatSym.odd_neg _
    rw [pairNames_cons]
    unfold oddCount at h1 ⊢
    rw [List.map_cons, List.map_cons, h2, List.count_cons, List.count_cons]
    split <;> omega

/-- The sign of a trace of the conjugate. -/
theorem conj_trace_sign [CommRing α] {conj : α →+* α} {t c : Tensor ν σ α} (h : Shaped t)
    (hc : IsConj conj t c) {ps : List (ν × ν)} (hn : (pairNames ps).Nodup)
    (hs : ∀ n ∈ pairNames ps, n ∈ t.names) {p w : ν → σ × ℕ}
    (hw : ∀ n, n ∉ pairNames ps → w n = p n) (hd : Diagonal ps w) :
    traceSign c ps (negPos w) * conjSign t.names w =
      conjSign (others t.names (pairNames ps)) p * traceSign t ps w := by
  unfold traceSign conjSign
  by_cases hf : TatSym.isFermi σ = true
  swap
  · simp [hf]
  simp only [if_pos hf]
  rw [hc.names, oddAt_negPos]
  have hin : ∀ d ∈ ps, d.1 ∈ t.names := fun d hd' =>
    hs d.1 ((pairNames_split ps).mem_iff.2 (List.mem_append_left _ (List.mem_map_of_mem hd')))
  have hout : ps.map (outOf c) = ps.map (inOf t) := List.map_congr_left fun d hd' => by
    unfold outOf inOf
    rw [hc.arrows d.1 (hin d hd'), if_pos hf]
    cases (edgeOf t d.1).arrow <;> rfl
  have hin' : ps.map (inOf c) = ps.map (outOf t) := List.map_congr_left fun d hd' => by
    unfold outOf inOf
    rw [hc.arrows d.1 (hin d hd'), if_pos hf]
    cases (edgeOf t d.1).arrow <;> rfl
  rw [hout, hin']
  set F := others t.names (pairNames ps) with hF
  set Q := (ps.map (outOf t)).reverse ++ ps.map (inOf t) with hQ
  have hQ' : (ps.map (inOf t)).reverse ++ ps.map (outOf t) = Q.reverse := by
    rw [hQ, List.reverse_append, List.reverse_reverse]
  have pq := pairs_perm t ps
  have nQ := pq.nodup_iff.1 hn
  have sp := others_perm h.nodup hn hs
  have sp' : t.names.Perm (Q ++ F) := (sp.trans (pq.append_left _)).trans List.perm_append_comm
  have dQ : ∀ x ∈ Q, x ∉ F := fun x hx hx' => (mem_others.1 hx').2 (pq.mem_iff.2 hx)
  have g : F.map (oddAt w) = F.map (oddAt p) := List.map_congr_left fun n hn => by
    unfold oddAt
    rw [hw n (mem_others.1 hn).2]
  have eT : reversalSign (t.names.map (oddAt w)) =
      reversalSign (F.map (oddAt p)) * reversalSign ((pairNames ps).map (oddAt w)) := by
    rw [reversalSign_perm (sp.map (oddAt w)), reversal_append,
      ((Nat.even_iff.2 (oddCount_pairNames hd)).mul_left _).neg_one_pow, mul_one, ← hF, g]
  rw [← List.append_assoc, ← List.append_assoc, hQ', ← hQ,
    ← exchangeOf_mul (oddAt w) sp' ((List.reverse_perm Q).symm.append_right F),
    exchangeOf_append _ (List.reverse_perm Q).symm (List.Perm.refl _) dQ, exchangeOf_refl, mul_one,
    exchangeOf_reverse _ nQ, ← reversalSign_perm (pq.map (oddAt w)), eT]
  have q := reversalSign_sq ((pairNames ps).map (oddAt w))
  linear_combination (exchangeOf (oddAt w) t.names (Q ++ F) * reversalSign (F.map (oddAt p))) * q

theorem diagonal_negPos (ps : List (ν × ν)) (w : ν → σ × ℕ) :
    Diagonal ps (negPos w) ↔ Diagonal ps w := by
  unfold Diagonal negPos
  refine forall₂_congr fun c _ => and_congr_left fun _ => ?_
  show -(w c.1).1 + -(w c.2).1 = 0 ↔ _
  rw [← neg_add, neg_eq_zero]

theorem traced_conj [CommRing α] {conj : α →+* α} {t c : Tensor ν σ α} (h : WF t)
    (hc : IsConj conj t c) {ps : List (ν × ν)} (hn : (pairNames ps).Nodup)
    (hs : ∀ n ∈ pairNames ps, n ∈ t.names) (p : ν → σ × ℕ) :
    traced c ps (negPos p) =
      conjSign (others t.names (pairNames ps)) p • conj (traced t ps p) := by
  unfold traced
  rw [show conj (sumOver (fun n => edgePositions (mapOf t n)) _ _ p) = _ from
    sumOver_hom conj.toAddMonoidHom _ _ _ _, ← sumOver_smul]
  rw [show negPos p = fun n => (fun x : σ × ℕ => (-x.1, x.2)) (p n) from rfl,
    sumOver_image (E := fun n => edgePositions (mapOf t n)) _ _ fun n hn' =>
      conj_positions h hc (hs n hn')]
  refine sumOver_congr hn fun w _ hw => ?_
  show (if Diagonal ps (negPos w) then traceSign c ps (negPos w) • amp c (negPos w) else 0) =
    _ • conj (if Diagonal ps w then _ else 0)
  by_cases hd : Diagonal ps w
  · rw [if_pos hd, if_pos ((diagonal_negPos ps w).2 hd), hc.amps, smul_smul, map_zsmul, smul_smul,
      conj_trace_sign h.shaped hc hn hs hw hd]
  · rw [if_neg hd, if_neg fun h => hd ((diagonal_negPos ps w).1 h), map_zero, smul_zero]

theorem traced_enlarge [CommRing α] {t : Tensor ν σ α} (h : Shaped t) {ps : List (ν × ν)}
    (hn : (pairNames ps).Nodup) (hs : ∀ n ∈ pairNames ps, n ∈ t.names) {U : ν → List (σ × ℕ)}
    (hU : ∀ n ∈ pairNames ps, (U n).Nodup)
    (hsub : ∀ n ∈ pairNames ps, ∀ x ∈ edgePositions (mapOf t n), x ∈ U n) (p : ν → σ × ℕ) :
    traced t ps p = sumOver U
      (fun w => if Diagonal ps w then traceSign t ps w • amp t w else 0) (pairNames ps) p := by
  refine (sumOver_restrict hn hU (fun n h' => edgePositions_nodup (mapOf_sorted' h n (hs n h'))) hsub
    ?_).symm
  rintro w - - ⟨n, hn', hw⟩
  rw [amp_zero' h, smul_zero, ite_self]
  intro hv
  exact hw ((mem_edgePositions (mapOf_sorted' h n (hs n hn'))).2
    (((validPos_iff' h).1 hv).1 n (hs n hn')))

theorem traced_add [CommRing α] {e : α} {x y s : Tensor ν σ α} (hx : Shaped x) (hy : Shaped y)
    (h : IsSum e x y s) {ps : List (ν × ν)} (hn : (pairNames ps).Nodup)
    (hs : ∀ n ∈ pairNames ps, n ∈ x.names)
    (ha : TatSym.isFermi σ = true → ∀ c ∈ ps, (edgeOf y c.1).arrow = (edgeOf x c.1).arrow)
    (p : ν → σ × ℕ) : traced s ps p = traced x ps p + e * traced y ps p := by
  let U : ν → List (σ × ℕ) := fun n =>
    (edgePositions (mapOf s n) ++ edgePositions (mapOf x n) ++ edgePositions (mapOf y n)).dedup
  have hU : ∀ n ∈ pairNames ps, (U n).Nodup := fun n _ => List.nodup_dedup _
  have hin : ∀ d ∈ ps, d.1 ∈ x.names := fun d hd' =>
    hs d.1 ((pairNames_split ps).mem_iff.2 (List.mem_append_left _ (List.mem_map_of_mem hd')))
  rw [traced_enlarge h.wf.shaped hn (by rw [h.names]; exact hs) hU
      (fun n _ z hz => List.mem_dedup.2 (List.mem_append_left _ (List.mem_append_left _ hz))),
    traced_enlarge hx hn hs hU
      (fun n _ z hz => List.mem_dedup.2 (List.mem_append_left _ (List.mem_append_right _ hz))),
    traced_enlarge hy hn (by rw [h.names']; exact hs) hU
      (fun n _ z hz => List.mem_dedup.2 (List.mem_append_right _ hz)),
    sumOver_mul_left, ← sumOver_add]
  refine sumOver_congr hn fun w _ _ => ?_
  have sg : ∀ z : Tensor ν σ α, z.names = x.names → (TatSym.isFermi σ = true → ∀ c ∈ ps,
      (edgeOf z c.1).arrow = (edgeOf x c.1).arrow) → traceSign z ps w = traceSign x ps w := by
    intro z hz hz'
    unfold traceSign
    by_cases hf : TatSym.isFermi σ = true
    · rw [if_pos hf, if_pos hf, hz]
      rw [List.map_congr_left (f := outOf z) (g := outOf x) fun c hc => by
          unfold outOf; rw [hz' hf c hc],
        List.map_congr_left (f := inOf z) (g := inOf x) fun c hc => by
          unfold inOf; rw [hz' hf c hc]]
    · rw [if_neg hf, if_neg hf]
  rw [sg s h.names fun _ c hc => h.arrows _ (hin c hc), sg y h.names' ha, h.amps]
  split
  · rw [smul_add, mul_smul_comm]
  · simp

theorem traced_scale [CommRing α] (a : α) (t : Tensor ν σ α) (ps : List (ν × ν)) (p : ν → σ × ℕ) :
    traced (mapTensor (a * ·) t) ps p = a * traced t ps p := by
  unfold traced
  rw [sumOver_mul_left]
  show sumOver (fun n => edgePositions (mapOf t n)) _ _ p = _
  congr 1
  funext w
  rw [amp_mapTensor (mul_zero a)]
  show (if Diagonal ps w then traceSign t ps w • _ else 0) = _
  split
  · rw [mul_smul_comm]
  · rw [mul_zero]

end

end TAT
