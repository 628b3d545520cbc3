import Verif.TensorMisc.Lemmas
import Verif.Scalar.Lemmas

/-!
# Properties of `identity` (C37)
-/

set_option linter.unusedSectionVars false

namespace TAT

variable {ν σ α β : Type} [LinearOrder ν] [TatSym σ]

theorem zero_blocks [Zero α] (t : Tensor ν σ α) :
    (zero t).core.blocks = t.core.blocks.map fun c => (c.1, List.replicate c.2.length 0) := by
  have hl : ∀ n : List α, (genList (fun (_ : Unit) => ((0 : α), ())) n ()).1 =
      List.replicate n.length 0 := by
    intro n
    induction n with
    | nil => rfl
    | cons x n ih =>
      rw [List.length_cons, List.replicate_succ, ← ih]; rfl
  unfold zero setWith
  simp only
  generalize t.core.blocks = l
  induction l with
  | nil => rfl
  | cons c l ih =>
    rw [List.map_cons, ← ih, ← hl]; rfl

/-! ## pairing -/

/-- `π` pairs the names: it has no fixed point and is its own inverse. -/
structure Pairing (names : List ν) (π : ν → ν) : Prop where
  mem : ∀ n ∈ names, π n ∈ names
  inv : ∀ n ∈ names, π (π n) = n
  ne : ∀ n ∈ names, π n ≠ n

/-- The first names of the pairs, in the order of the edges. -/
def firsts (names : List ν) (π : ν → ν) : List ν :=
  names.filter fun n => decide (names.idxOf n < names.idxOf (π n))

theorem Pairing.idx_ne {names : List ν} {π : ν → ν} (h : Pairing names π) {n : ν}
    (hn : n ∈ names) : names.idxOf (π n) ≠ names.idxOf n := by
  intro he
  exact h.ne n hn ((List.idxOf_inj (h.mem n hn)).1 he)

theorem Pairing.perm {names : List ν} {π : ν → ν} (h : Pairing names π) (hn : names.Nodup) :
    (firsts names π ++ (firsts names π).map π).Perm names := by
  have hmap : ((firsts names π).map π).Perm
      (names.filter fun n => !decide (names.idxOf n < names.idxOf (π n))) := by
    refine (List.perm_ext_iff_of_nodup ?_ (hn.filter _)).2 fun x => ?_
    · refine List.Nodup.map_on (fun a ha b hb hab => ?_) (hn.filter _)
      have ha' := List.mem_of_mem_filter ha
      have hb' := List.mem_of_mem_filter hb
      rw [← h.inv a ha', ← h.inv b hb', hab]
    · rw [List.mem_map, List.mem_filter]
      constructor
      · rintro ⟨a, ha, rfl⟩
        obtain ⟨ha1, ha2⟩ := List.mem_filter.1 ha
        have := of_decide_eq_true ha2
        refine ⟨h.mem a ha1, ?_⟩
        rw [h.inv a ha1]
        simp only [Bool.not_eq_true', decide_eq_false_iff_not]
        omega
      · rintro ⟨hx, hlt⟩
        simp only [Bool.not_eq_true', decide_eq_false_iff_not] at hlt
        refine ⟨π x, List.mem_filter.2 ⟨h.mem x hx, ?_⟩, h.inv x hx⟩
        have := h.idx_ne hx
        rw [h.inv x hx]
        exact decide_eq_true (by omega)
  exact (List.Perm.append_left _ hmap).trans (List.filter_append_perm _ _)

theorem Pairing.length {names : List ν} {π : ν → ν} (h : Pairing names π) (hn : names.Nodup) :
    (firsts names π).length = names.length / 2 := by
  have := (h.perm hn).length_eq
  rw [List.length_append, List.length_map] at this
  omega

/-- The loop over the names finds the ordered pairs. -/
theorem identityPairs_eq {names : List ν} (hn : names.Nodup) {π : ν → ν} (h : Pairing names π)
    {pairs : List (ν × ν)} (hp : ∀ n ∈ names, partnerIn pairs n = some (π n)) :
    identityPairs names pairs =
      .ok ((firsts names π).map fun n => (names.idxOf n, names.idxOf (π n))) := by
  have key : ∀ k ≤ names.length, ∃ valid : List Bool,
      (List.range k).foldlM (identityStep names pairs) (List.replicate names.length true, []) =
        .ok (valid, ((names.take k).filter fun n =>
          decide (names.idxOf n < names.idxOf (π n))).map fun n =>
            (names.idxOf n, names.idxOf (π n))) ∧
      valid.length = names.length ∧
      ∀ n ∈ names, k ≤ names.idxOf n →
        valid.getD (names.idxOf n) false = decide (¬ names.idxOf (π n) < k) := by
    intro k
    induction k with
    | zero =>
      intro _
      refine ⟨List.replicate names.length true, rfl, by simp, fun n hn _ => ?_⟩
      rw [List.getD_eq_getElem _ _ (by simpa using List.idxOf_lt_length_iff.2 hn)]
      simp
    | succ k ih =>
      intro hk
      obtain ⟨valid, h1, h2, h3⟩ := ih (by omega)
      have hk' : k < names.length := by omega
      have hm : names[k] ∈ names := List.getElem_mem hk'
      have hidx : names.idxOf names[k] = k := hn.idxOf_getElem k hk'
      have hne := h.idx_ne hm
      have hv := h3 names[k] hm (by omega)
      rw [hidx] at hv hne
      have htake : names.take (k + 1) = names.take k ++ [names[k]] := by
        rw [List.take_add_one, List.getElem?_eq_getElem hk']; rfl
      rw [List.range_succ, List.foldlM_append, h1]
      change ∃ v, (([k] : List ℕ).foldlM (identityStep names pairs) (valid, _)) = _ ∧ _
      rw [List.foldlM_cons, htake, List.filter_append, List.map_append]
      by_cases hlt : k < names.idxOf (π names[k])
      · have hstep : ∀ acc, identityStep names pairs (valid, acc) k =
            .ok (valid.set (names.idxOf (π names[k])) false,
              acc ++ [(k, names.idxOf (π names[k]))]) := by
          intro acc
          unfold identityStep
          simp only
          rw [hv, if_pos (decide_eq_true (by omega)), List.getElem?_eq_getElem hk']
          simp only [hp _ hm]
          rw [nameToIndex_find hn, if_pos (h.mem _ hm)]
        rw [hstep]
        refine ⟨_, by
          simp only [List.filter_cons, List.filter_nil, hidx, hlt, decide_true, if_true,
            List.map_cons, List.map_nil]
          rfl, by simpa using h2, fun n hnm hkn => ?_⟩
        by_cases he : names.idxOf n = names.idxOf (π names[k])
        · have hnn : n = π names[k] := (List.idxOf_inj hnm).1 he
          rw [he, List.getD_eq_getElem _ _ (by
            rw [List.length_set, h2]; exact List.idxOf_lt_length_iff.2 (h.mem _ hm)),
            List.getElem_set_self, hnn, h.inv _ hm, hidx]
          simp
        · have hlt' : names.idxOf n < valid.length := by
            rw [h2]; exact List.idxOf_lt_length_iff.2 hnm
          have := h3 n hnm (by omega)
          rw [List.getD_eq_getElem _ _ hlt'] at this
          rw [List.getD_eq_getElem _ _ (by rw [List.length_set]; exact hlt'),
            List.getElem_set_ne (Ne.symm he), this]
          have hne' : names.idxOf (π n) ≠ k := fun e => he (by
            have : π n = names[k] := (List.idxOf_inj (h.mem n hnm)).1 (by rw [e, hidx])
            rw [← this, h.inv n hnm])
          congr 1
          rw [eq_iff_iff]
          omega
      · have hstep : ∀ acc, identityStep names pairs (valid, acc) k = .ok (valid, acc) := by
          intro acc
          unfold identityStep
          simp only
          rw [hv, if_neg (by rw [decide_eq_true_iff]; omega)]
        rw [hstep]
        refine ⟨valid, by
          simp only [List.filter_cons, List.filter_nil, hidx, hlt, decide_false,
            Bool.false_eq_true, if_false, List.map_nil, List.append_nil]
          rfl, h2, fun n hnm hkn => ?_⟩
        rw [h3 n hnm (by omega)]
        have hne' : names.idxOf (π n) ≠ k := fun e => by
          have : π n = names[k] := (List.idxOf_inj (h.mem n hnm)).1 (by rw [e, hidx])
          have h4 : π names[k] = n := by rw [← this, h.inv n hnm]
          rw [h4] at hlt
          omega
        congr 1
        rw [eq_iff_iff]
        omega
  obtain ⟨valid, h1, _, _⟩ := key names.length le_rfl
  unfold identityPairs
  rw [h1, List.take_length]
  rfl

/-! ## one block -/

theorem dot_map (l : List ν) (q f : ν → ℕ) :
    dot (l.map q) (l.map f) = (l.map fun n => q n * f n).sum := by
  unfold dot
  rw [List.zipWith_map, List.zipWith_self]

theorem inBox_map (l : List ν) (d q : ν → ℕ) :
    InBox (l.map d) (l.map q) ↔ ∀ n ∈ l, q n < d n := by
  unfold InBox
  rw [forall2_map_self]

/-- The place of an index which agrees on all pairs. -/
theorem pair_place {names : List ν} (hn : names.Nodup) {π : ν → ν} (h : Pairing names π)
    (d q : ν → ℕ) (hq : ∀ n ∈ names, q (π n) = q n) :
    dot ((firsts names π).map q) ((firsts names π).map fun n =>
      (leadingsOf (names.map d)).getD (names.idxOf n) 0 +
        (leadingsOf (names.map d)).getD (names.idxOf (π n)) 0) =
      rowMajor (names.map d) (names.map q) := by
  rw [rowMajor_eq_dot (by simp)]
  have hlead : leadingsOf (names.map d) =
      names.map fun n => (leadingsOf (names.map d)).getD (names.idxOf n) 0 := by
    apply List.ext_getElem
    · simp [leadingsOf_length]
    · intro i h1 h2
      have hi : i < names.length := by simpa using h2
      rw [List.getElem_map, hn.idxOf_getElem i hi, List.getD_eq_getElem _ _ h1]
  have hd2 : dot (names.map q) (leadingsOf (names.map d)) = (names.map fun n =>
      q n * (leadingsOf (names.map d)).getD (names.idxOf n) 0).sum := by
    conv_lhs => rw [hlead]
    rw [dot_map]
  rw [hd2, dot_map, ← ((h.perm hn).map _).sum_eq, List.map_append, List.sum_append,
    List.map_map, ← List.sum_map_add]
  congr 1
  refine List.map_congr_left fun n hm => ?_
  have := List.mem_of_mem_filter hm
  simp only [Function.comp_apply, hq n this]
  ring

/-- `set_to_identity` writes ones exactly where the indices of all pairs agree. -/
theorem setToIdentity_spec [One α] {names : List ν} (hn : names.Nodup) {π : ν → ν}
    (h : Pairing names π) (d : ν → ℕ) (hd : ∀ n ∈ names, d (π n) = d n) (hpos : ∀ n ∈ names, 0 < d n)
    (hne : names ≠ []) {data : List α} (hl : data.length = (names.map d).prod) :
    ∃ data', setToIdentity data ((firsts names π).map d) ((firsts names π).map fun n =>
      (leadingsOf (names.map d)).getD (names.idxOf n) 0 +
        (leadingsOf (names.map d)).getD (names.idxOf (π n)) 0) (names.length / 2) = .ok data' ∧
      data'.length = data.length ∧
      ∀ q : ν → ℕ, (∀ n ∈ names, q n < d n) →
        data'[rowMajor (names.map d) (names.map q)]? =
          if ∀ n ∈ names, q (π n) = q n then some 1
          else data[rowMajor (names.map d) (names.map q)]? := by
  generalize hlead : ((firsts names π).map fun n =>
      (leadingsOf (names.map d)).getD (names.idxOf n) 0 +
        (leadingsOf (names.map d)).getD (names.idxOf (π n)) 0) = lead
  have hlen := h.length hn
  have hrank : 0 < names.length / 2 := by
    have := (h.perm hn).length_eq
    rw [List.length_append, List.length_map] at this
    have := List.length_pos_iff.2 hne
    omega
  have hsub : ∀ n ∈ firsts names π, n ∈ names := fun n hm => List.mem_of_mem_filter hm
  have hdp : 0 < ((firsts names π).map d).prod := by
    apply Nat.pos_of_ne_zero
    rw [ne_eq, List.prod_eq_zero_iff, List.mem_map]
    rintro ⟨n, hm, he⟩
    have := hpos n (hsub n hm)
    omega
  -- every tuple comes from an index which agrees on all pairs
  have hlift : ∀ idx, InBox ((firsts names π).map d) idx → ∃ q : ν → ℕ,
      (∀ n ∈ names, q n < d n) ∧ (∀ n ∈ names, q (π n) = q n) ∧ idx = (firsts names π).map q := by
    intro idx hb
    have hil : idx.length = (firsts names π).length := by simpa using hb.length.symm
    have hnf : (firsts names π).Nodup := hn.filter _
    have hin : ∀ n ∈ firsts names π, idx.getD ((firsts names π).idxOf n) 0 < d n := by
      intro n hm
      have hi : (firsts names π).idxOf n < (firsts names π).length := List.idxOf_lt_length_iff.2 hm
      have := (List.forall₂_iff_get.1 hb).2 ((firsts names π).idxOf n) (by simpa using hi)
        (by omega)
      rw [List.getD_eq_getElem _ _ (by omega)]
      simpa [List.getElem_idxOf] using this
    have hdich : ∀ n ∈ names, n ∈ firsts names π ∨ π n ∈ firsts names π := by
      intro n hm
      rcases List.mem_append.1 ((h.perm hn).mem_iff.2 hm) with hf | hf
      · exact Or.inl hf
      · obtain ⟨a, ha, rfl⟩ := List.mem_map.1 hf
        right
        rw [h.inv a (hsub a ha)]; exact ha
    have hexcl : ∀ n ∈ firsts names π, π n ∉ firsts names π := by
      intro n hm hm'
      have h1 := of_decide_eq_true (List.mem_filter.1 hm).2
      have h2 := of_decide_eq_true (List.mem_filter.1 hm').2
      rw [h.inv n (hsub n hm)] at h2
      omega
    refine ⟨fun n => if n ∈ firsts names π then idx.getD ((firsts names π).idxOf n) 0
      else idx.getD ((firsts names π).idxOf (π n)) 0, fun n hm => ?_, fun n hm => ?_, ?_⟩
    · dsimp only
      split
      · exact hin n ‹_›
      · rcases hdich n hm with hf | hf
        · contradiction
        · rw [← hd n hm]; exact hin _ hf
    · dsimp only
      rcases hdich n hm with hf | hf
      · rw [if_pos hf, if_neg (hexcl n hf), h.inv n hm]
      · have := hexcl _ hf
        rw [h.inv n hm] at this
        rw [if_pos hf, if_neg this]
    · apply List.ext_getElem
      · simpa using hil
      · intro i h1 h2
        have hi : i < (firsts names π).length := by simpa using h2
        rw [List.getElem_map, if_pos (List.getElem_mem hi), hnf.idxOf_getElem i hi,
          List.getD_eq_getElem _ _ h1]
  have hplace : ∀ q : ν → ℕ, (∀ n ∈ names, q (π n) = q n) →
      dot ((firsts names π).map q) lead = rowMajor (names.map d) (names.map q) := by
    intro q hq
    rw [← hlead]
    exact pair_place hn h d q hq
  have hloop : setToIdentity data ((firsts names π).map d) lead (names.length / 2) =
      (tuples ((firsts names π).map d)).foldlM (fun dst idx => writeAt dst (dot idx lead) 1)
        data := by
    unfold setToIdentity
    rw [if_neg (by omega), ← hlen]
    have hz : (⟨List.replicate (firsts names π).length 0, 0, 0⟩ : Cursor) =
        cursorAt lead lead 0 0 (List.replicate ((firsts names π).map d).length 0) := by
      simp [cursorAt, dot_zeros]
    have hll : lead.length = ((firsts names π).map d).length := by rw [← hlead]; simp
    rw [hz, kernelLoop_tuples (by rw [List.length_map]; omega) hdp _ _
      (cursorAt lead lead 0 0) _ _ le_rfl]
    · simp [cursorAt]
    · intro idx hb
      have := kernelCarry_eq hll hll 0 0 (((firsts names π).map d).length - 1)
        (by rw [List.length_map]; omega) idx hb.length.symm
      simpa using this
  rw [hloop]
  have hbound : ∀ q : ν → ℕ, (∀ n ∈ names, q n < d n) →
      rowMajor (names.map d) (names.map q) < (names.map d).prod := fun q hq =>
    rowMajor_lt ((inBox_map _ _ _).2 hq)
  obtain ⟨data', h1, h2, h3, h4⟩ := foldlM_writes (N := data.length)
    (step := fun dst idx => writeAt dst (dot idx lead) 1) (l := tuples ((firsts names π).map d))
    (fun idx => dot idx lead) (fun _ => some (1 : α)) (fun idx hm => by
      obtain ⟨q, hq1, hq2, rfl⟩ := hlift idx (mem_tuples.1 hm)
      have hb : dot ((firsts names π).map q) lead < data.length := by
        rw [hplace q hq2, hl]; exact hbound q hq1
      refine ⟨hb, 1, rfl, fun dst hdst => ?_⟩
      unfold writeAt
      rw [if_pos (by rw [hdst]; exact hb)]) rfl
  refine ⟨data', h1, h2, fun q hq => ?_⟩
  by_cases hall : ∀ n ∈ names, q (π n) = q n
  · rw [if_pos hall, ← hplace q hall]
    exact h3 _ (mem_tuples.2 ((inBox_map _ _ _).2 fun n hm => hq n (hsub n hm)))
  · rw [if_neg hall]
    refine h4 _ fun idx hm he => hall ?_
    obtain ⟨q', hq1, hq2, rfl⟩ := hlift idx (mem_tuples.1 hm)
    rw [hplace q' hq2] at he
    have := rowMajor_inj ((inBox_map _ _ _).2 hq1) ((inBox_map _ _ _).2 hq) he
    have heq := List.map_inj_left.1 this
    intro n hnm
    rw [← heq n hnm, ← heq _ (h.mem n hnm), hq2 n hnm]

/-! ## C37 -/

/-- All names of a list of pairs. -/
def pairNames (pairs : List (ν × ν)) : List ν := pairs.flatMap fun x => [x.1, x.2]

theorem partnerIn_spec {pairs : List (ν × ν)} (hn : (pairNames pairs).Nodup) {x : ν × ν}
    (hx : x ∈ pairs) : partnerIn pairs x.1 = some x.2 ∧ partnerIn pairs x.2 = some x.1 := by
  induction pairs with
  | nil => simp at hx
  | cons y pairs ih =>
    obtain ⟨a, b⟩ := y
    have hmem : ∀ z ∈ pairs, z.1 ∈ pairNames pairs ∧ z.2 ∈ pairNames pairs := fun z hz =>
      ⟨List.mem_flatMap.2 ⟨z, hz, by simp⟩, List.mem_flatMap.2 ⟨z, hz, by simp⟩⟩
    have hc : pairNames ((a, b) :: pairs) = a :: b :: pairNames pairs := rfl
    rw [hc, List.nodup_cons, List.nodup_cons, List.mem_cons, not_or] at hn
    rcases List.mem_cons.1 hx with rfl | hx
    · exact ⟨by simp [partnerIn], by simp [partnerIn, hn.1.1]⟩
    · obtain ⟨h1, h2⟩ := ih hn.2.2 hx
      obtain ⟨m1, m2⟩ := hmem x hx
      have e1 : ∀ z ∈ pairNames pairs, a ≠ z ∧ b ≠ z := fun z hz =>
        ⟨fun e => hn.1.2 (e ▸ hz), fun e => hn.2.1 (e ▸ hz)⟩
      unfold partnerIn
      rw [if_neg (e1 _ m1).1, if_neg (e1 _ m1).2, if_neg (e1 _ m2).1, if_neg (e1 _ m2).2]
      exact ⟨h1, h2⟩

theorem pairing_of_pairs {names : List ν} (hn : names.Nodup) {pairs : List (ν × ν)}
    (hp : (pairNames pairs).Perm names) :
    ∃ π : ν → ν, Pairing names π ∧ (∀ n ∈ names, partnerIn pairs n = some (π n)) ∧
      (∀ x ∈ pairs, π x.1 = x.2 ∧ π x.2 = x.1) ∧
      ∀ n ∈ names, (n, π n) ∈ pairs ∨ (π n, n) ∈ pairs := by
  have hnd := hp.nodup_iff.2 hn
  have hne : ∀ x ∈ pairs, x.1 ≠ x.2 := by
    intro x hx
    have := List.nodup_flatMap.1 hnd
    simpa using this.1 x hx
  have hmem : ∀ x ∈ pairs, x.1 ∈ names ∧ x.2 ∈ names := fun z hz =>
    ⟨hp.mem_iff.1 (List.mem_flatMap.2 ⟨z, hz, by simp⟩),
      hp.mem_iff.1 (List.mem_flatMap.2 ⟨z, hz, by simp⟩)⟩
  have hex : ∀ n ∈ names, ∃ x ∈ pairs, n = x.1 ∨ n = x.2 := by
    intro n hn'
    obtain ⟨x, hx, hnx⟩ := List.mem_flatMap.1 (hp.mem_iff.2 hn')
    exact ⟨x, hx, by simpa using hnx⟩
  have hpi : ∀ x ∈ pairs, (partnerIn pairs x.1).getD x.1 = x.2 ∧
      (partnerIn pairs x.2).getD x.2 = x.1 := fun x hx => by
    rw [(partnerIn_spec hnd hx).1, (partnerIn_spec hnd hx).2]; exact ⟨rfl, rfl⟩
  refine ⟨fun n => (partnerIn pairs n).getD n, ⟨fun n hm => ?_, fun n hm => ?_, fun n hm => ?_⟩,
    fun n hm => ?_, hpi, fun n hm => ?_⟩ <;>
  · obtain ⟨x, hx, rfl | rfl⟩ := hex n hm <;>
      simp only [(hpi x hx).1, (hpi x hx).2, (partnerIn_spec hnd hx).1,
        (partnerIn_spec hnd hx).2, Option.getD_some, hmem x hx, hne x hx, (hne x hx).symm, hx, ne_eq,
        not_false_eq_true, true_or, or_true, Prod.mk.eta]

/-- **C37**: what `identity` computes: one at the positions where the indices of every pair agree,
zero elsewhere. -/
theorem C37_elements [Zero α] [One α] (junk : List σ → ℕ → α) {t : Tensor ν σ α} (h : WF t)
    {pairs : List (ν × ν)} (hp : (pairNames pairs).Perm t.names) (hne : t.names ≠ [])
    (hpos : ∀ n ∈ t.names, ∀ s ∈ OMap.keys (mapOf t n), 0 < dimM (mapOf t n) s)
    (hdim : ∀ p, KeyOk (mapOf t) t.names p → ∀ x ∈ pairs,
      dimM (mapOf t x.1) (p x.1).1 = dimM (mapOf t x.2) (p x.2).1) :
    ∃ r, identity junk t pairs = .ok r ∧ WF r ∧ r.names = t.names ∧ r.core.edges = t.core.edges ∧
      ∀ p, ValidPos t p →
        elem r p = some (if ∀ x ∈ pairs, (p x.1).2 = (p x.2).2 then 1 else 0) := by
  obtain ⟨π, hπ, hpi, hpair, hmemp⟩ := pairing_of_pairs h.nodup hp
  unfold identity
  rw [identityPairs_eq h.nodup hπ hpi, sameShape_eq junk h]
  change ∃ r, Outcome.bind (List.mapM (identityBlock t.core.edges t.names.length
    ((firsts t.names π).map fun n => (t.names.idxOf n, t.names.idxOf (π n))))
      (zero (⟨t.names, t.core.edges, freshBlocks junk (t.core.edges.map Edge.map)⟩ :
        Tensor ν σ α)).core.blocks) _ = _ ∧ _
  rw [zero_blocks]
  have hfresh : (freshBlocks junk (t.core.edges.map Edge.map)).map
      (fun c => (c.1, List.replicate c.2.length (0 : α))) =
      t.core.blocks.map fun c => (c.1, List.replicate c.2.length 0) := by
    unfold freshBlocks
    rw [← h.blocks, List.map_map, List.map_map]
    exact List.map_congr_left fun c _ => by simp
  simp only [hfresh]
  -- one block
  have hblock : ∀ p, KeyOk (mapOf t) t.names p → ∀ d : List α,
      d.length = (t.names.map fun n => dimM (mapOf t n) (p n).1).prod → ∃ d',
      identityBlock t.core.edges t.names.length ((firsts t.names π).map fun n =>
        (t.names.idxOf n, t.names.idxOf (π n))) (keyOf t.names p, d) =
          .ok (keyOf t.names p, d') ∧ d'.length = d.length ∧
      ∀ q : ν → ℕ, (∀ n ∈ t.names, q n < dimM (mapOf t n) (p n).1) →
        d'[rowMajor (t.names.map fun n => dimM (mapOf t n) (p n).1) (t.names.map q)]? =
          if ∀ n ∈ t.names, q (π n) = q n then some 1
          else d[rowMajor (t.names.map fun n => dimM (mapOf t n) (p n).1) (t.names.map q)]? := by
    intro p hk d hl
    have hdπ : ∀ n ∈ t.names, dimM (mapOf t (π n)) (p (π n)).1 = dimM (mapOf t n) (p n).1 := by
      intro n hn
      rcases hmemp n hn with hx | hx
      · exact (hdim p hk _ hx).symm
      · exact hdim p hk _ hx
    obtain ⟨d', h1, h2, h3⟩ := setToIdentity_spec h.nodup hπ
      (fun n => dimM (mapOf t n) (p n).1) hdπ (fun n hn => hpos n hn _ (hk.1 n hn)) hne hl
    refine ⟨d', ?_, h2, h3⟩
    unfold identityBlock
    have hdims := edgeDims_ok (edges := t.core.edges) (k := keyOf t.names p) (by
      unfold keyOf
      rw [edges_named h, forall2_map_self]
      exact hk.1)
    rw [dimsOf_named h] at hdims
    simp only [hdims, Outcome.bind]
    rw [if_neg (by rw [List.length_map, hπ.length h.nodup]; omega),
      List.take_of_length_le (by rw [List.length_map, hπ.length h.nodup]), List.map_map,
      List.map_map]
    have e1 : (firsts t.names π).map ((fun x : ℕ × ℕ =>
        (t.names.map fun n => dimM (mapOf t n) (p n).1).getD x.1 0) ∘ fun n =>
          (t.names.idxOf n, t.names.idxOf (π n))) =
        (firsts t.names π).map fun n => dimM (mapOf t n) (p n).1 := by
      refine List.map_congr_left fun n hn => ?_
      have hi := List.idxOf_lt_length_iff.2 (List.mem_of_mem_filter hn)
      simp only [Function.comp_apply]
      rw [List.getD_eq_getElem _ _ (by simpa using hi), List.getElem_map, List.getElem_idxOf]
    rw [e1]
    simp only [Function.comp_def]
    rw [h1]
  let body := identityBlock (α := α) t.core.edges t.names.length
    ((firsts t.names π).map fun n => (t.names.idxOf n, t.names.idxOf (π n)))
  let val : List σ × List α → List α := fun c =>
    ((body (c.1, List.replicate c.2.length 0)).toOption.map Prod.snd).getD []
  have hval : ∀ p, KeyOk (mapOf t) t.names p → ∀ d,
      OMap.find? t.core.blocks (keyOf t.names p) = some d →
      body (keyOf t.names p, List.replicate d.length 0) =
        .ok (keyOf t.names p, val (keyOf t.names p, d)) ∧
      (val (keyOf t.names p, d)).length = d.length ∧
      ∀ q : ν → ℕ, (∀ n ∈ t.names, q n < dimM (mapOf t n) (p n).1) →
        (val (keyOf t.names p, d))[rowMajor (t.names.map fun n => dimM (mapOf t n) (p n).1)
          (t.names.map q)]? = some (if ∀ n ∈ t.names, q (π n) = q n then 1 else 0) := by
    intro p hk d hd
    have hl := length_named h hd
    obtain ⟨d', h1, h2, h3⟩ := hblock p hk (List.replicate d.length 0) (by simpa using hl)
    have h1' : body (keyOf t.names p, List.replicate d.length 0) = .ok (keyOf t.names p, d') := h1
    have hv : val (keyOf t.names p, d) = d' := by
      change ((body (keyOf t.names p, List.replicate d.length 0)).toOption.map Prod.snd).getD [] = _
      rw [h1']; rfl
    rw [hv]
    refine ⟨h1', by simpa using h2, fun q hq => ?_⟩
    rw [h3 q hq]
    split
    · rfl
    · rw [List.getElem?_replicate, if_pos]
      rw [hl]
      exact rowMajor_lt ((inBox_map _ _ _).2 hq)
  have hsrc : ∀ c ∈ t.core.blocks, ∃ p, keyOf t.names p = c.1 ∧ KeyOk (mapOf t) t.names p ∧
      OMap.find? t.core.blocks c.1 = some c.2 := by
    intro c hc
    have hf := OMap.find?_of_mem h.blocksSorted.nodup hc
    have hm : c.1 ∈ OMap.keys t.core.blocks := OMap.find?_isSome.1 (by rw [hf]; rfl)
    obtain ⟨p, hp⟩ := exists_key h hm
    exact ⟨p, hp, (mem_keys_named h p).1 (hp ▸ hm), hf⟩
  have hmap : List.mapM body (t.core.blocks.map fun c => (c.1, List.replicate c.2.length 0)) =
      .ok (t.core.blocks.map fun c => (c.1, val c)) := by
    rw [List.mapM_map]
    refine mapM_ok fun c hc => ?_
    obtain ⟨p, hp, hk, hf⟩ := hsrc c hc
    have := (hval p hk c.2 (hp ▸ hf)).1
    rw [hp] at this
    exact this
  have hwf : WF (⟨t.names, t.core.edges, t.core.blocks.map fun c => (c.1, val c)⟩ :
      Tensor ν σ α) := by
    refine withBlocks_wf (f := fun k d => val (k, d)) h fun c hc => ?_
    obtain ⟨p, hp, hk, hf⟩ := hsrc c hc
    have := (hval p hk c.2 (hp ▸ hf)).2.1
    rw [hp] at this
    exact this
  refine ⟨⟨t.names, t.core.edges, t.core.blocks.map fun c => (c.1, val c)⟩, ?_, hwf, rfl, rfl,
    fun p hv => ?_⟩
  · change Outcome.bind (List.mapM body _) _ = _
    rw [hmap]; rfl
  · have hfo := (validPos_iff h).1 hv
    obtain ⟨d, hd, _⟩ := h.valid_block hv
    have h3 := (hval p hfo.keyOk d hd).2.2 (fun n => (p n).2) hfo.1
    have hfind := find?_withBlocks t (fun k d => val (k, d)) (keyOf t.names p)
    rw [hd] at hfind
    change OMap.find? (t.core.blocks.map fun c => (c.1, val c)) _ = _ at hfind
    rw [elem_named hwf]
    simp only [hfind, Option.map_some, Option.bind_some]
    refine h3.trans ?_
    congr 1
    have : (∀ n ∈ t.names, (p (π n)).2 = (p n).2) ↔ ∀ x ∈ pairs, (p x.1).2 = (p x.2).2 := by
      constructor
      · intro hall x hx
        have hm : x.1 ∈ t.names := hp.mem_iff.1 (List.mem_flatMap.2 ⟨x, hx, by simp⟩)
        have := hall x.1 hm
        rw [(hpair x hx).1] at this
        exact this.symm
      · intro hall n hn
        rcases hmemp n hn with hx | hx
        · exact (hall _ hx).symm
        · exact hall _ hx
    simp only [this]

/-- The two edges of a pair match: the dimension of a symmetry on one is that of the opposite
symmetry on the other. -/
def PairMatches (t : Tensor ν σ α) (pairs : List (ν × ν)) : Prop :=
  ∀ x ∈ pairs, ∀ s, dimM (mapOf t x.1) s = dimM (mapOf t x.2) (-s)

/-- In every block the symmetries of each pair are opposite. -/
def PairOpposite (t : Tensor ν σ α) (pairs : List (ν × ν)) : Prop :=
  ∀ p, KeyOk (mapOf t) t.names p → ∀ x ∈ pairs, (p x.1).1 + (p x.2).1 = 0

/-- **C37** (partial: the property does not hold without `PairOpposite`, see
`C37_not_opposite`): one where each pair has opposite symmetries and equal indices, zero
elsewhere. -/
theorem C37_identity_partial [Zero α] [One α] (junk : List σ → ℕ → α) {t : Tensor ν σ α} (h : WF t)
    {pairs : List (ν × ν)} (hp : (pairNames pairs).Perm t.names) (hne : t.names ≠ [])
    (hpos : ∀ n ∈ t.names, ∀ s ∈ OMap.keys (mapOf t n), 0 < dimM (mapOf t n) s)
    (hm : PairMatches t pairs) (ho : PairOpposite t pairs) :
    ∃ r, identity junk t pairs = .ok r ∧ WF r ∧ r.names = t.names ∧ r.core.edges = t.core.edges ∧
      ∀ p, ValidPos t p → elem r p =
        some (if ∀ x ∈ pairs, (p x.1).1 + (p x.2).1 = 0 ∧ (p x.1).2 = (p x.2).2 then 1 else 0) := by
  obtain ⟨r, h1, h2, h3, h4, h5⟩ := C37_elements junk h hp hne hpos fun p hk x hx => by
    rw [hm x hx]
    congr 1
    exact neg_eq_of_add_eq_zero_right (ho p hk x hx)
  refine ⟨r, h1, h2, h3, h4, fun p hv => ?_⟩
  rw [h5 p hv]
  have hk := ((validPos_iff h).1 hv).keyOk
  congr 1
  have : (∀ x ∈ pairs, (p x.1).2 = (p x.2).2) ↔
      ∀ x ∈ pairs, (p x.1).1 + (p x.2).1 = 0 ∧ (p x.1).2 = (p x.2).2 :=
    forall₂_congr fun x hx => (and_iff_right (ho p hk x hx)).symm
  simp only [this]

/-- For tensors without symmetry paired symmetries are always opposite. -/
theorem C37_noSymmetry (hs : TatSym.isNoSym σ = true) (t : Tensor ν σ α) (pairs : List (ν × ν)) :
    PairOpposite t pairs := fun _ _ _ _ => TatSym.noSym_eq hs _ _

/-- With a single pair they are opposite because the symmetries of a block add up to zero. -/
theorem C37_matrix {t : Tensor ν σ α} {a b : ν} (hp : (pairNames [(a, b)]).Perm t.names) :
    PairOpposite t [(a, b)] := by
  intro p hk x hx
  rw [List.mem_singleton] at hx
  subst hx
  have h2 := hk.2
  have : (keyOf t.names p).sum = (keyOf [a, b] p).sum := by
    unfold keyOf
    exact ((hp.map _).sum_eq).symm
  rw [this] at h2
  simpa [keyOf] using h2

end TAT
