import Verif.Decomp.Factor

/-!
# Splitting the edges of a factor
-/

set_option linter.unusedSectionVars false

namespace TAT

variable {ν σ α : Type} [LinearOrder ν] [TatSym σ]

/-- The sign of splitting a factor: `-1` if the common edge is odd and either changed its side or was
reversed with sign, but not both. -/
def unfoldSign (moved signed : Bool) (c : ν) (q : ν → σ × ℕ) : ℤ :=
  if TatSym.isFermi σ && (oddAt q c && (moved ^^ signed)) then -1 else 1

/-- The edge of the split factor. -/
def unfoldEdge (t : Tensor ν σ α) (F E : Edge σ) (c : ν) (R : List ν) (n : ν) : Edge σ :=
  reversedEdge R (fun n => if n = c then E else ⟨F.arrow, mapOf t n⟩) n

theorem exchange_common {G : List ν} {c : ν} (hG : G.Nodup) (hc : c ∉ G) {q : ν → σ × ℕ}
    (h0 : (keyOf (G ++ [c]) q).sum = 0) :
    exchangeOf (oddAt q) (G ++ [c]) ([c] ++ G) = (if oddAt q c then -1 else 1) ∧
    exchangeOf (oddAt q) ([c] ++ G) (G ++ [c]) = (if oddAt q c then -1 else 1) := by
  have hd : ∀ x ∈ G, x ∉ [c] := fun x hx hxc => hc (by
    rw [List.mem_singleton] at hxc; exact hxc ▸ hx)
  have hd' : ∀ x ∈ [c], x ∉ G := fun x hx hxc => hd x hxc hx
  have hcount : oddCount (oddAt q) [c] = if oddAt q c then 1 else 0 := by
    unfold oddCount
    cases h : oddAt q c <;> simp [h]
  have hev := oddCount_even h0
  have hpow : ((-1 : ℤ)) ^ (oddCount (oddAt q) G * oddCount (oddAt q) [c]) =
      if oddAt q c then -1 else 1 := by
    rw [hcount] at hev ⊢
    cases h : oddAt q c
    · simp
    · rw [h] at hev
      simp only [if_true, Nat.mul_one] at hev ⊢
      have ho : Odd (oddCount (oddAt q) G) := Nat.odd_iff.2 (by omega)
      exact ho.neg_one_pow
  refine ⟨by rw [exchangeOf_swap _ hG (by simp) hd, hpow], ?_⟩
  rw [exchangeOf_swap _ (by simp) hG hd', Nat.mul_comm, hpow]

theorem unfold_spec [Neg α] [Zero α] (env : Env σ α) {t T : Tensor ν σ α} (hT : WF T) {x c : ν}
    (hxc : x ≠ c) {G : List ν} (hG : G.Nodup) (hcG : c ∉ G)
    (hGs : ∀ n ∈ G, OMap.Sorted (mapOf t n)) {r r' : Bool} {F E Ec : Edge σ}
    (hn : T.names = pairOf r x c) (he : T.core.edges = pairOf r F E)
    {parts : List (ν × List (σ × ℕ))} (hparts : parts = G.map fun n => (n, mapOf t n))
    {R X newNames : List ν} (hnew : newNames = (pairOf r' G [c]).flatten)
    (hX : ∀ n ∈ G, n ∉ X) {cut : List (ν × List (σ × ℕ))}
    (hcut : opCut T (unfoldArgs x parts R newNames X cut) = pairOf r F Ec)
    (hEs : OMap.Sorted Ec.map) (hsub : ∀ s ∈ OMap.keys Ec.map, s ∈ OMap.keys E.map)
    (hdim : ∀ s ∈ OMap.keys F.map, dimOf F s = mergedDim (G.map (mapOf t)) s) :
    ∃ u, edgeOperator env T (unfoldArgs x parts R newNames X cut) = .ok u ∧ u.names = newNames ∧
      WF u ∧ u.core.edges = prunedEdges (newNames.map (unfoldEdge t F Ec c R)) ∧
      ∀ q, FineOk (fun n => (unfoldEdge t F Ec c R n).map) newNames q →
        elem u q = (elemAt T.core (pairOf r (keyOf G q).sum (q c).1)
          (pairOf r (groupIdx (mapOf t) G q) (q c).2)).map
          (applySign (unfoldSign (decide (r ≠ r')) (decide (c ∈ R) && decide (c ∈ X)) c q)) := by
  set a := unfoldArgs x parts R newNames X cut with ha
  have hnc : ∀ n ∈ G, n ≠ c := fun n hn h => hcG (h ▸ hn)
  have hnames : opNames T a = pairOf r x c := by
    unfold opNames
    rw [hn]
    exact (List.map_congr_left fun n _ => renameOne_nil n).trans (List.map_id _)
  have hfx : OMap.find? a.split x = some parts := by
    rw [ha]; unfold unfoldArgs; simp [OMap.find?]
  have hfc : OMap.find? a.split c = none := by
    rw [ha]; unfold unfoldArgs; simp [OMap.find?, Ne.symm hxc]
  have hp1 : parts.map Prod.fst = G := by rw [hparts]; exact map_fst_parts t G
  have hp2 : parts.map Prod.snd = G.map (mapOf t) := by rw [hparts]; exact map_snd_parts t G
  have hS : opS T a = pairOf r G [c] := by
    unfold opS splitGroups
    rw [hnames]
    unfold pairOf
    cases r <;> simp [hfx, hfc, hp1]
  have hM : opM a = newNames.map fun n => [n] := opM_noMerge rfl
  have hMf : (opM a).flatten = newNames := by rw [hM, flatten_singletons]
  have hcd : ∀ y ∈ [c], y ∉ G := fun y hy => by
    rw [List.mem_singleton] at hy; rw [hy]; exact hcG
  have hnd1 : (G ++ [c]).Nodup := by
    rw [List.nodup_append]
    exact ⟨hG, by simp, fun y hy z hz hyz => hcd z hz (hyz ▸ hy)⟩
  have hSp : (opS T a).flatten.Perm (G ++ [c]) := by
    rw [hS]; exact (pairOf_flatten_perm _ _ _).symm
  have hNp : newNames.Perm (G ++ [c]) := by
    rw [hnew]; exact (pairOf_flatten_perm _ _ _).symm
  have hSnd : (opS T a).flatten.Nodup := hSp.nodup_iff.2 hnd1
  have hNnd : newNames.Nodup := hNp.nodup_iff.2 hnd1
  have hSN : (opS T a).flatten.Perm newNames := hSp.trans hNp.symm
  -- the fine edges
  have hfine : ∀ n ∈ G ++ [c], opFine T a n = if n = c then Ec else ⟨F.arrow, mapOf t n⟩ := by
    have hE : (fineEdges a.split ((opNames T a).zip (opCut T a))).Perm
        (G.map (fun n => (n, (⟨F.arrow, mapOf t n⟩ : Edge σ))) ++ [(c, Ec)]) := by
      rw [hnames, hcut]
      unfold pairOf fineEdges
      cases r
      · simp only [Bool.false_eq_true, if_false, List.zip_cons_cons, List.zip_nil_left,
          List.flatMap_cons, List.flatMap_nil, hfx, hfc, List.append_nil]
        rw [hparts, List.map_map]
        exact List.perm_append_comm
      · simp only [if_true, List.zip_cons_cons, List.zip_nil_left, List.flatMap_cons,
          List.flatMap_nil, hfx, hfc, List.append_nil]
        rw [hparts, List.map_map]
        exact List.Perm.refl _
    have hf : ((fineEdges a.split ((opNames T a).zip (opCut T a))).map Prod.fst).Nodup := by
      rw [(hE.map Prod.fst).nodup_iff, List.map_append, List.map_map]
      have : G.map (Prod.fst ∘ fun n => (n, (⟨F.arrow, mapOf t n⟩ : Edge σ))) = G := List.map_id _
      rw [this]
      exact hnd1
    intro n hn
    unfold opFine
    rcases List.mem_append.1 hn with hn | hn
    · rw [if_neg (hnc n hn)]
      exact edgeNamed_of_mem hf (x := (n, ⟨F.arrow, mapOf t n⟩)) (hE.mem_iff.2
        (List.mem_append_left _ (List.mem_map.2 ⟨n, hn, rfl⟩)))
    · rw [List.mem_singleton] at hn
      subst hn
      rw [if_pos rfl]
      exact edgeNamed_of_mem hf (x := (n, Ec)) (hE.mem_iff.2
        (List.mem_append_right _ (by simp)))
  have hmapG : ∀ n ∈ G, opMap T a n = mapOf t n := by
    intro n hn
    unfold opMap
    rw [hfine n (List.mem_append_left _ hn), if_neg (hnc n hn)]
  have hmapc : opMap T a c = Ec.map := by
    unfold opMap
    rw [hfine c (by simp), if_pos rfl]
  have hrev : ∀ n ∈ newNames, opReversed T a n = unfoldEdge t F Ec c R n := by
    intro n hn
    unfold opReversed unfoldEdge reversedEdge
    rw [hfine n (hNp.mem_iff.1 hn)]
    rfl
  have hsumS : ∀ p : ν → σ × ℕ, (keyOf (opS T a).flatten p).sum = (keyOf G p).sum + (p c).1 := by
    intro p
    rw [sum_split hSp p]
    simp [keyOf]
  have hinF : ∀ p, KeyOk (opMap T a) (opS T a).flatten p →
      (keyOf G p).sum ∈ OMap.keys F.map ∧ (p c).1 ∈ OMap.keys Ec.map := by
    intro p hp
    have h1 := hp.1 c (hSp.mem_iff.2 (by simp))
    rw [hmapc] at h1
    have h2 := hp.2
    rw [hsumS] at h2
    have h3 : (keyOf G p).sum = -(p c).1 := eq_neg_of_add_eq_zero_left h2
    refine ⟨?_, h1⟩
    rw [h3]
    exact two_keys hT (r := !r) (A := E) (B := F) (by rw [he]; cases r <;> rfl) (hsub _ h1)
  have hok : OpOk T a := {
    wf := hT.shaped
    pruned := fun _ => hT.pruned
    nodup := hSnd
    perm := by rw [hMf]; exact hSN
    newNodup := hNnd
    parts := by
      intro y hy z hz
      rw [ha] at hy
      unfold unfoldArgs at hy
      rw [List.mem_singleton] at hy
      subst hy
      rw [hparts] at hz
      obtain ⟨n, hn, rfl⟩ := List.mem_map.1 hz
      exact hGs n hn
    fits := by
      intro y hy parts' hparts'
      have hyx : y = (x, F) := by
        rw [hcut, hnames] at hy
        have : y = (x, F) ∨ y = (c, Ec) := by
          unfold pairOf at hy
          cases r
          · simpa [or_comm] using hy
          · simpa using hy
        rcases this with h | h
        · exact h
        · rw [h] at hparts'
          rw [hfc] at hparts'
          exact absurd hparts' (by simp)
      subst hyx
      obtain rfl : parts = parts' := Option.some.inj (hfx.symm.trans hparts')
      rw [hp1, hp2]
      exact ⟨fun s hs => le_of_eq (hdim s hs).symm, fun _ p hp _ => (hinF p hp).1⟩
    cutKeys := by
      intro h
      rw [ha] at h
      exact absurd h (by unfold unfoldArgs; simp) }
  obtain ⟨u, d1, d2, d3, d4, d5, -⟩ := edgeOperator_spec env hok
  refine ⟨u, d1, d2, d3, ?_, fun q hq => ?_⟩
  · rw [d4]
    congr 1
    unfold opEdges
    rw [hM]
    apply List.ext_getElem
    · simp
    · intro i i1 i2
      simp only [List.getElem_map, List.getElem_zipIdx, List.map_singleton, groupEdge]
      exact hrev _ (List.getElem_mem _)
  · have hmapN : ∀ n ∈ newNames, opMap T a n = (unfoldEdge t F Ec c R n).map := by
      intro n hn
      rw [← hrev n hn, opReversed_map]
    have hq1 : FineOk (opMap T a) newNames q := (fineOk_congr hmapN).2 hq
    have hq' : FineOk (opMap T a) (opS T a).flatten q := hq1.perm hSN.symm
    have hcoarse : coarseKey (opS T a) q = pairOf r (keyOf G q).sum (q c).1 := by
      rw [hS]; unfold coarseKey pairOf
      cases r <;> simp [keyOf]
    have hgi : groupIdx (opMap T a) G q = groupIdx (mapOf t) G q := by
      unfold groupIdx
      rw [List.map_congr_left hmapG, List.map_congr_left (g := fun n => dimM (mapOf t n) (q n).1)
        fun n hn => by rw [hmapG n hn]]
    have hcoarseI : coarseIdx (opMap T a) (opS T a) q =
        pairOf r (groupIdx (mapOf t) G q) (q c).2 := by
      rw [hS]; unfold coarseIdx pairOf
      have h2 : groupIdx (opMap T a) [c] q = (q c).2 := groupIdx_single (by rw [hmapc]; exact hEs) q
      cases r <;> simp [hgi, h2]
    have hin : opIn T a q := by
      unfold opIn
      rw [hcut, hcoarse]
      obtain ⟨h1, h2⟩ := hinF q hq'.keyOk
      unfold pairOf
      cases r
      · exact .cons h2 (.cons h1 .nil)
      · exact .cons h1 (.cons h2 .nil)
    have hsN : ∀ n ∈ newNames, OMap.Sorted (opMap T a n) := fun n hn =>
      hok.sorted n (hSN.mem_iff.2 hn)
    have h5 := d5 q hq' hin
    rw [hM, coarseKey_singles, coarseIdx_singles hsN, hcoarse, hcoarseI] at h5
    have hsign : opSign T a q =
        unfoldSign (decide (r ≠ r')) (decide (c ∈ R) && decide (c ∈ X)) c q := by
      unfold opSign unfoldSign
      by_cases hf : TatSym.isFermi σ = true
      · rw [if_pos hf, hf, Bool.true_and, hM, flatten_singletons,
          groupsOf_short _ (List.map _ _) _ (by
            intro g hg
            obtain ⟨n, _, rfl⟩ := List.mem_map.1 hg
            simp)]
        have e2 := prod_reverseOf_false (oddAt q) (newNames.map fun n => [n]) (fun g n =>
          flipped (opReversed T a) g n && marked a.applyParity a.excludeReverseMerge n) (by
            intro g n
            simp [ha, unfoldArgs, marked])
        have e3 : groupsOf (oddAt q) (opS T a)
            ((opNames T a).map (marked a.applyParity a.excludeSplit)) = 1 := by
          unfold groupsOf
          apply List.prod_eq_one
          intro y hy
          obtain ⟨i, hi, rfl⟩ := List.mem_iff_getElem.1 hy
          simp [ha, unfoldArgs, marked]
        have e4 : reverseOf (oddAt q) (fun n => decide (n ∈ a.reversed) &&
            marked a.applyParity a.excludeReverse n) (opS T a).flatten =
            if oddAt q c && (decide (c ∈ R) && decide (c ∈ X)) then -1 else 1 := by
          rw [reverseOf_eq_prod _ _ hSp]
          unfold reverseOf
          rw [List.map_append, List.prod_append]
          have a1 : (G.map fun n => if (decide (n ∈ a.reversed) &&
              marked a.applyParity a.excludeReverse n) = true ∧ oddAt q n = true then (-1 : ℤ)
              else 1).prod = 1 := by
            apply List.prod_eq_one
            intro y hy
            obtain ⟨n, hn, rfl⟩ := List.mem_map.1 hy
            have := hX n hn
            simp [ha, unfoldArgs, marked, this]
          rw [a1]
          simp only [ha, unfoldArgs, marked, List.map_cons, List.map_nil, List.prod_cons,
            List.prod_nil, Bool.and_eq_true, decide_eq_true_eq, one_mul, mul_one]
          by_cases hR : c ∈ R <;> by_cases hXc : c ∈ X <;> cases oddAt q c <;> simp [hR, hXc]
        have e5 : exchangeOf (oddAt q) (opS T a).flatten newNames =
            if oddAt q c && decide (r ≠ r') then -1 else 1 := by
          have h0 : (keyOf (G ++ [c]) q).sum = 0 := by
            have := hq'.2
            rw [hsumS] at this
            rw [sum_split (List.Perm.refl _) q]
            simpa [keyOf] using this
          obtain ⟨x1, x2⟩ := exchange_common hG hcG h0
          rw [hS, hnew]
          unfold pairOf
          cases r <;> cases r' <;>
            simp only [Bool.false_eq_true, if_false, if_true, List.flatten_cons, List.flatten_nil,
              List.append_nil]
          · rw [exchangeOf_refl]; simp
          · rw [x2]; simp
          · rw [x1]; simp
          · rw [exchangeOf_refl]; simp
        rw [e2, e3, e4, e5]
        cases oddAt q c <;> cases hm : decide (r ≠ r') <;>
          cases hd : (decide (c ∈ R) && decide (c ∈ X)) <;> simp
      · rw [if_neg hf]
        rw [Bool.not_eq_true] at hf
        rw [hf, Bool.false_and, if_neg (by simp)]
    rw [hsign] at h5
    unfold elem
    rw [d2]
    exact h5

end TAT
