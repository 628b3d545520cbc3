import Verif.Trace.Pairs
import Verif.Contract.Body
import Verif.Contract.Fuse

/-!
# The sum over the diagonal
-/

set_option linter.unusedSectionVars false

namespace TAT

variable {ν σ α : Type} [LinearOrder ν] [TatSym σ]

/-- The pairs in the direction in which they are merged. -/
structure Traced (t : Tensor ν σ α) (cs : List (ν × ν)) : Prop where
  wf : WF t
  pairs : Pairs t.names t.names cs
  apart : ∀ n ∈ cs.map Prod.fst, n ∉ cs.map Prod.snd
  maps : ∀ c ∈ cs, ∀ s, OMap.find? (mapOf t c.1) s = OMap.find? (mapOf t c.2) (-s)
  aligned : Aligned t t cs

/-- The edges that stay. -/
def freeOf (t : Tensor ν σ α) (cs : List (ν × ν)) : List ν :=
  others t.names (cs.map Prod.fst ++ cs.map Prod.snd)

theorem mem_freeOf {t : Tensor ν σ α} {cs : List (ν × ν)} {n : ν} :
    n ∈ freeOf t cs ↔ n ∈ t.names ∧ n ∉ cs.map Prod.fst ∧ n ∉ cs.map Prod.snd := by
  unfold freeOf
  rw [mem_others, List.mem_append, not_or]

theorem Traced.perm {t : Tensor ν σ α} {cs : List (ν × ν)} (h : Traced t cs) :
    t.names.Perm (cs.map Prod.fst ++ (cs.map Prod.snd ++ freeOf t cs)) := by
  refine (List.perm_ext_iff_of_nodup h.wf.nodup ?_).2 fun n => ?_
  · refine List.nodup_append.2 ⟨h.pairs.nodup1, List.nodup_append.2 ⟨h.pairs.nodup2,
      h.wf.nodup.filter _, ?_⟩, ?_⟩
    · rintro a ha b hb rfl
      exact (mem_freeOf.1 hb).2.2 ha
    · rintro a ha b hb rfl
      rcases List.mem_append.1 hb with hb | hb
      · exact h.apart a ha hb
      · exact (mem_freeOf.1 hb).2.1 ha
  · rw [List.mem_append, List.mem_append, mem_freeOf]
    constructor
    · intro hn; tauto
    · rintro (hn | hn | hn)
      · obtain ⟨c, hc, rfl⟩ := List.mem_map.1 hn
        exact h.pairs.sub1 c hc
      · obtain ⟨c, hc, rfl⟩ := List.mem_map.1 hn
        exact h.pairs.sub2 c hc
      · exact hn.1

/-- The sign of a trace with the pairs directed. -/
def directedSign (t : Tensor ν σ α) (cs : List (ν × ν)) (w : ν → σ × ℕ) : ℤ :=
  if TatSym.isFermi σ then
    exchangeOf (oddAt w) t.names ((cs.map Prod.fst).reverse ++ (cs.map Prod.snd ++ freeOf t cs))
  else 1

theorem directedSign_perm {t : Tensor ν σ α} {cs cs' : List (ν × ν)} (h : Traced t cs)
    (hcs : cs.Perm cs') {w : ν → σ × ℕ} (ho : ∀ c ∈ cs, oddAt w c.1 = oddAt w c.2) :
    directedSign t cs w = directedSign t cs' w := by
  unfold directedSign
  split
  · have g1 := hcs.map Prod.fst
    have g2 := hcs.map Prod.snd
    have hfr : freeOf t cs' = freeOf t cs := (others_congr (names := t.names) (g1.append g2)).symm
    have r1 := List.reverse_perm (cs.map Prod.fst)
    have r2 := List.reverse_perm (cs'.map Prod.fst)
    have rr := (r1.trans g1).trans r2.symm
    rw [hfr]
    have hd : ∀ x ∈ (cs.map Prod.fst).reverse, x ∉ cs.map Prod.snd ++ freeOf t cs := by
      intro x hx hx'
      rw [List.mem_reverse] at hx
      rcases List.mem_append.1 hx' with hx' | hx'
      · exact h.apart x hx hx'
      · exact (mem_freeOf.1 hx').2.1 hx
    have hd2 : ∀ x ∈ cs.map Prod.snd, x ∉ freeOf t cs := fun x hx hx' => (mem_freeOf.1 hx').2.2 hx
    rw [← exchangeOf_mul (oddAt w) (h.perm.trans (r1.symm.append_right _))
      (rr.append (g2.append_right (freeOf t cs))),
      exchangeOf_append _ rr (g2.append_right _) hd,
      exchangeOf_append _ g2 (List.Perm.refl _) hd2, exchangeOf_refl,
      exchangeOf_reverse_both _ h.pairs.nodup1 g1, mul_one,
      exchangeOf_pairs h.pairs.nodup1 h.pairs.nodup2 hcs ho, exchangeOf_sq, mul_one]
  · rfl

/-- The position with each partner of a pair set to match. -/
def diagonal (cs : List (ν × ν)) (w : ν → σ × ℕ) : ν → σ × ℕ := partner cs w w

theorem Traced.diag_fst {t : Tensor ν σ α} {cs : List (ν × ν)} (h : Traced t cs) (w : ν → σ × ℕ)
    {n : ν} (hn : n ∉ cs.map Prod.snd) : diagonal cs w n = w n := partner_free w w hn

theorem Traced.diag_snd {t : Tensor ν σ α} {cs : List (ν × ν)} (h : Traced t cs) (w : ν → σ × ℕ)
    {c : ν × ν} (hc : c ∈ cs) : diagonal cs w c.2 = (-(w c.1).1, (w c.1).2) :=
  partner_common h.pairs.nodup2 w w hc

theorem Traced.diag_odd {t : Tensor ν σ α} {cs : List (ν × ν)} (h : Traced t cs) (w : ν → σ × ℕ)
    {c : ν × ν} (hc : c ∈ cs) : oddAt (diagonal cs w) c.1 = oddAt (diagonal cs w) c.2 := by
  unfold oddAt
  rw [h.diag_snd w hc, h.diag_fst w (h.apart _ (List.mem_map_of_mem hc))]
  exact (odd_neg _).symm

/-- The sum over all positions of the pairs restricted to the diagonal is the sum over the first edge
of each pair. -/
theorem Traced.sum_diag {t : Tensor ν σ α} {cs : List (ν × ν)} (h : Traced t cs) [AddCommGroup α]
    (F : (ν → σ × ℕ) → α) (p : ν → σ × ℕ) :
    sumOver (fun n => edgePositions (mapOf t n)) (fun w => if Diagonal cs w then F w else 0)
      (cs.map Prod.fst ++ cs.map Prod.snd) p =
    sumOver (fun n => edgePositions (mapOf t n)) (fun w => F (diagonal cs w)) (cs.map Prod.fst) p := by
  have hs1 : ∀ n ∈ cs.map Prod.fst, OMap.Sorted (mapOf t n) := by
    intro n hn
    obtain ⟨c, hc, rfl⟩ := List.mem_map.1 hn
    exact mapOf_sorted h.wf _ (h.pairs.sub1 c hc)
  have hs2 : ∀ n ∈ cs.map Prod.snd, OMap.Sorted (mapOf t n) := by
    intro n hn
    obtain ⟨c, hc, rfl⟩ := List.mem_map.1 hn
    exact mapOf_sorted h.wf _ (h.pairs.sub2 c hc)
  have hnd : (cs.map Prod.fst ++ cs.map Prod.snd).Nodup :=
    List.nodup_append.2 ⟨h.pairs.nodup1, h.pairs.nodup2, by
      rintro a ha b hb rfl
      exact h.apart a ha hb⟩
  have hE1 : ∀ n ∈ cs.map Prod.fst, (edgePositions (mapOf t n)).Nodup := fun n hn =>
    edgePositions_nodup (hs1 n hn)
  rw [sumOver_eq, sumOver_eq, sum_map_filter]
  have : ((assigns (fun n => edgePositions (mapOf t n)) (cs.map Prod.fst) p).map
      fun w => F (diagonal cs w)) = ((assigns (fun n => edgePositions (mapOf t n))
        (cs.map Prod.fst) p).map (diagonal cs)).map F := by
    rw [List.map_map]; rfl
  rw [this]
  refine List.Perm.sum_eq (List.Perm.map _ ?_)
  refine (List.perm_ext_iff_of_nodup ((assigns_nodup hnd (fun n hn => ?_) p).filter _) ?_).2
    fun w' => ?_
  · rcases List.mem_append.1 hn with hn | hn
    · exact hE1 n hn
    · exact edgePositions_nodup (hs2 n hn)
  · refine List.Nodup.map_on ?_ (assigns_nodup h.pairs.nodup1 hE1 p)
    intro w hw v hv he
    rw [mem_assigns h.pairs.nodup1] at hw hv
    funext n
    by_cases hn : n ∈ cs.map Prod.fst
    · have := congrFun he n
      rwa [h.diag_fst w (h.apart n hn), h.diag_fst v (h.apart n hn)] at this
    · rw [hw.2 n hn, hv.2 n hn]
  · rw [List.mem_filter, mem_assigns hnd, List.mem_map, decide_eq_true_eq]
    constructor
    · rintro ⟨⟨h1, h2⟩, h3⟩
      refine ⟨fun n => if n ∈ cs.map Prod.snd then p n else w' n, ?_, ?_⟩
      · rw [mem_assigns h.pairs.nodup1]
        refine ⟨fun n hn => ?_, fun n hn => ?_⟩
        · rw [if_neg (h.apart n hn)]
          exact h1 n (List.mem_append_left _ hn)
        · by_cases hn2 : n ∈ cs.map Prod.snd
          · rw [if_pos hn2]
          · rw [if_neg hn2]
            exact h2 n (by rw [List.mem_append]; tauto)
      · funext n
        by_cases hn : n ∈ cs.map Prod.snd
        · obtain ⟨c, hc, rfl⟩ := List.mem_map.1 hn
          rw [h.diag_snd _ hc, if_neg (h.apart _ (List.mem_map_of_mem hc))]
          obtain ⟨e1, e2⟩ := h3 c hc
          exact Prod.ext (neg_eq_of_add_eq_zero_right e1) e2
        · rw [h.diag_fst _ hn, if_neg hn]
    · rintro ⟨w, hw, rfl⟩
      rw [mem_assigns h.pairs.nodup1] at hw
      refine ⟨⟨fun n hn => ?_, fun n hn => ?_⟩, fun c hc => ?_⟩
      · rcases List.mem_append.1 hn with hn | hn
        · rw [h.diag_fst _ (h.apart n hn)]
          exact hw.1 n hn
        · have hs := hs2 n hn
          obtain ⟨c, hc, rfl⟩ := List.mem_map.1 hn
          rw [h.diag_snd _ hc, mem_edgePositions hs]
          have := (mem_edgePositions (hs1 _ (List.mem_map_of_mem hc))).1
            (hw.1 c.1 (List.mem_map_of_mem hc))
          unfold dimM at this ⊢
          rwa [h.maps c hc] at this
      · rw [List.mem_append, not_or] at hn
        rw [h.diag_fst _ hn.2]
        exact hw.2 n hn.1
      · rw [h.diag_snd _ hc, h.diag_fst _ (h.apart _ (List.mem_map_of_mem hc))]
        exact ⟨add_neg_cancel _, rfl⟩

theorem diagonal_orient (t : Tensor ν σ α) {pairs cs : List (ν × ν)}
    (hcs : cs.Perm (pairs.map (orient t))) (w : ν → σ × ℕ) : Diagonal cs w ↔ Diagonal pairs w := by
  unfold Diagonal
  constructor
  · intro h c hc
    have := h (orient t c) (hcs.mem_iff.2 (List.mem_map_of_mem hc))
    rcases orient_or t c with e | e
    · rwa [e] at this
    · rw [e] at this
      exact ⟨by rw [add_comm]; exact this.1, this.2.symm⟩
  · intro h c hc
    obtain ⟨d, hd, rfl⟩ := List.mem_map.1 (hcs.mem_iff.1 hc)
    have := h d hd
    rcases orient_or t d with e | e
    · rwa [e]
    · rw [e]
      exact ⟨by rw [add_comm]; exact this.1, this.2.symm⟩

theorem pairNames_perm (t : Tensor ν σ α) (pairs : List (ν × ν)) :
    (pairNames pairs).Perm ((pairs.map (orient t)).map Prod.fst ++
      (pairs.map (orient t)).map Prod.snd) := by
  induction pairs with
  | nil => simp [pairNames]
  | cons c l ih =>
    rw [pairNames_cons]
    simp only [List.map_cons, List.cons_append]
    have h1 : (c.1 :: c.2 :: pairNames l).Perm
        ((orient t c).1 :: (orient t c).2 :: pairNames l) := by
      rcases orient_or t c with e | e
      · rw [e]
      · rw [e]; exact List.Perm.swap _ _ _
    refine h1.trans (List.Perm.cons _ ?_)
    exact (List.Perm.cons _ ih).trans List.perm_middle.symm

/-- Exchanging the two edges of a pair does not matter. -/
theorem separated_orient {t : Tensor ν σ α} {pairs : List (ν × ν)} (hn : (pairs.map Prod.fst).Nodup)
    (hm : Matched t t pairs) (h : Separated t (pairs.map Prod.fst)) :
    Separated t ((pairs.map (orient t)).map Prod.fst) := by
  intro p q hp hq hs n hn'
  have look : ∀ f g : ν → σ, ∃ r : ν → σ, ∀ d ∈ pairs,
      r d.1 = if orient t d = d then f d.1 else -g d.2 := by
    intro f g
    refine ⟨fun n => match pairs.find? fun c => decide (c.1 = n) with
      | some d => if orient t d = d then f d.1 else -g d.2
      | none => 0, fun d hd => ?_⟩
    have := (findPair1_some hn (n := d.1) (c := d)).2 ⟨hd, rfl⟩
    unfold findPair1 at this
    dsimp only
    rw [this]
  obtain ⟨p', a⟩ := look p q
  obtain ⟨q', b⟩ := look q p
  have hin : ∀ f g r : ν → σ,
      (∀ n ∈ (pairs.map (orient t)).map Prod.fst, f n ∈ OMap.keys (mapOf t n)) →
      (∀ n ∈ (pairs.map (orient t)).map Prod.fst, g n ∈ OMap.keys (mapOf t n)) →
      (∀ d ∈ pairs, r d.1 = if orient t d = d then f d.1 else -g d.2) →
      ∀ n ∈ pairs.map Prod.fst, r n ∈ OMap.keys (mapOf t n) := by
    intro f g r hf hg hr n hn
    obtain ⟨d, hd, rfl⟩ := List.mem_map.1 hn
    have h1 := List.mem_map_of_mem (f := Prod.fst) (List.mem_map_of_mem (f := orient t) hd)
    rw [hr d hd]
    by_cases e : orient t d = d
    · rw [if_pos e]
      have := hf _ h1
      rwa [e] at this
    · rw [if_neg e, matched_key hm hd, neg_neg]
      have := hg _ h1
      rwa [(orient_or t d).resolve_left e] at this
  have hsum : ((pairs.map Prod.fst).map p').sum + (((pairs.map (orient t)).map Prod.fst).map q).sum =
      ((pairs.map Prod.fst).map q').sum + (((pairs.map (orient t)).map Prod.fst).map p).sum := by
    have : ∀ l : List (ν × ν), (∀ d ∈ l, d ∈ pairs) →
        ((l.map Prod.fst).map p').sum + (((l.map (orient t)).map Prod.fst).map q).sum =
        ((l.map Prod.fst).map q').sum + (((l.map (orient t)).map Prod.fst).map p).sum := by
      intro l
      induction l with
      | nil => intro _; simp
      | cons d l ih =>
        intro hl
        have hd := hl d (by simp)
        have ih := ih fun x hx => hl x (by simp [hx])
        have e : p' d.1 + q (orient t d).1 = q' d.1 + p (orient t d).1 := by
          rw [a d hd, b d hd]
          by_cases e : orient t d = d
          · rw [if_pos e, if_pos e, e, add_comm]
          · rw [if_neg e, if_neg e, (orient_or t d).resolve_left e]
            simp
        simp only [List.map_cons, List.sum_cons]
        rw [add_add_add_comm, e, ih, add_add_add_comm]
    exact this pairs fun _ h => h
  rw [hs] at hsum
  have hres := h p' q' (hin p q p' hp hq a) (hin q p q' hq hp b) (add_right_cancel hsum)
  obtain ⟨o, ho, rfl⟩ := List.mem_map.1 hn'
  obtain ⟨d, hd, rfl⟩ := List.mem_map.1 ho
  have := hres d.1 (List.mem_map_of_mem hd)
  rw [a d hd, b d hd] at this
  by_cases e : orient t d = d
  · rw [if_pos e, if_pos e] at this
    rw [e]; exact this
  · rw [if_neg e, if_neg e, neg_inj] at this
    rw [(orient_or t d).resolve_left e]
    exact this.symm

/-- What the pairs given by the caller become. -/
theorem traced_of {t : Tensor ν σ α} (h : WF t) {pairs cs : List (ν × ν)}
    (hn : (pairNames pairs).Nodup) (hs : ∀ n ∈ pairNames pairs, n ∈ t.names)
    (hm : ∀ c ∈ pairs, ∀ s, OMap.find? (mapOf t c.1) s = OMap.find? (mapOf t c.2) (-s))
    (ha : TatSym.isFermi σ = true → ∀ c ∈ pairs, (edgeOf t c.1).arrow ≠ (edgeOf t c.2).arrow)
    (hl : Separated t (pairs.map Prod.fst) ∨ ∀ s : σ, -s = s)
    (hcs : cs.Perm (pairs.map (orient t))) :
    Traced t cs ∧ freeOf t cs = others t.names (pairNames pairs) := by
  have hp := (pairNames_perm t pairs).trans
    ((hcs.map Prod.fst).append (hcs.map Prod.snd)).symm
  have hnd := List.nodup_append.1 (hp.nodup_iff.1 hn)
  have hP : Pairs t.names t.names cs := {
    nodup1 := hnd.1
    nodup2 := hnd.2.1
    sub1 := fun c hc => hs _ (hp.mem_iff.2 (List.mem_append_left _ (List.mem_map_of_mem hc)))
    sub2 := fun c hc => hs _ (hp.mem_iff.2 (List.mem_append_right _ (List.mem_map_of_mem hc))) }
  have hM : Matched t t cs := {
    arrows := by
      intro hf c hc
      obtain ⟨d, hd, rfl⟩ := List.mem_map.1 (hcs.mem_iff.1 hc)
      have := ha hf d hd
      rcases orient_or t d with e | e
      · rwa [e]
      · rw [e]; exact this.symm
    maps := by
      intro c hc s
      obtain ⟨d, hd, rfl⟩ := List.mem_map.1 (hcs.mem_iff.1 hc)
      rcases orient_or t d with e | e
      · rw [e]; exact hm d hd s
      · rw [e]
        have := hm d hd (-s)
        rw [neg_neg] at this
        exact this.symm }
  refine ⟨⟨h, hP, fun n h1 h2 => hnd.2.2 n h1 n h2 rfl, hM.maps, aligned_of h.shaped h.shaped hP hM ?_⟩, ?_⟩
  · refine hl.imp_left fun hl' => ?_
    refine (separated_orient ?_ ⟨ha, hm⟩ hl').perm (hcs.map _)
    have : (pairNames pairs).Perm (pairs.map Prod.fst ++ pairs.map Prod.snd) := by
      clear hn hs hm ha hl hl' hcs hp hnd hP hM
      induction pairs with
      | nil => simp [pairNames]
      | cons c l ih =>
        have ih' : (l.flatMap fun c => [c.1, c.2]).Perm _ := ih
        simp only [pairNames, List.flatMap_cons, List.map_cons, List.cons_append, List.nil_append]
        exact List.Perm.cons _ ((List.Perm.cons _ ih').trans List.perm_middle.symm)
    exact (List.nodup_append.1 (this.nodup_iff.1 hn)).1
  · exact (others_congr (names := t.names) hp).symm

/-- The traced element as a sum over the first edge of each pair. -/
theorem traced_eq {t : Tensor ν σ α} (h : WF t) [AddCommGroup α] {pairs cs : List (ν × ν)}
    (hn : (pairNames pairs).Nodup) (hs : ∀ n ∈ pairNames pairs, n ∈ t.names)
    (ha : TatSym.isFermi σ = true → ∀ c ∈ pairs, (edgeOf t c.1).arrow ≠ (edgeOf t c.2).arrow)
    (hcs : cs.Perm (pairs.map (orient t)))
    (hT : Traced t cs) (hG : freeOf t cs = others t.names (pairNames pairs)) (p : ν → σ × ℕ) :
    traced t pairs p = sumOver (fun n => edgePositions (mapOf t n))
      (fun w => directedSign t cs (diagonal cs w) • amp t (diagonal cs w)) (cs.map Prod.fst) p := by
  have hp := (pairNames_perm t pairs).trans
    ((hcs.map Prod.fst).append (hcs.map Prod.snd)).symm
  unfold traced
  rw [sumOver_perm hn (fun n hn => edgePositions_nodup (mapOf_sorted h n (hs n hn))) hp]
  have : (fun w : ν → σ × ℕ => if Diagonal pairs w then traceSign t pairs w • amp t w else 0) =
      fun w => if Diagonal cs w then directedSign t cs w • amp t w else 0 := by
    funext w
    by_cases hd : Diagonal pairs w
    · have hd' := (diagonal_orient t hcs w).2 hd
      rw [if_pos hd, if_pos hd']
      congr 1
      rw [directedSign_perm hT hcs (fun c hc => by
        unfold oddAt
        rw [← neg_eq_of_add_eq_zero_right (hd' c hc).1]
        exact (odd_neg _).symm)]
      unfold traceSign directedSign
      split
      · rename_i hf
        have hfr : freeOf t (pairs.map (orient t)) = freeOf t cs :=
          others_congr (names := t.names) ((hcs.map Prod.fst).append (hcs.map Prod.snd)).symm
        rw [hfr, hG, List.map_map, List.map_map]
        have e1 : pairs.map (Prod.fst ∘ orient t) = pairs.map (outOf t) :=
          List.map_congr_left fun c hc => by
            rw [Function.comp_apply, orient_fermi hf (ha hf c hc)]
        have e2 : pairs.map (Prod.snd ∘ orient t) = pairs.map (inOf t) :=
          List.map_congr_left fun c hc => by
            rw [Function.comp_apply, orient_fermi hf (ha hf c hc)]
        rw [e1, e2]
      · rfl
    · rw [if_neg hd, if_neg fun hc => hd ((diagonal_orient t hcs w).1 hc)]
  rw [this]
  exact hT.sum_diag _ p

end TAT
