import Verif.Expo.Model
import Verif.Trace.Pairs

/-!
# The pairs found by the loop of the exponential
-/

set_option linter.unusedSectionVars false

namespace TAT

variable {ν σ α : Type} [LinearOrder ν] [TatSym σ]

theorem expFind_traceFind (pairs : List (ν × ν)) (n : ν) :
    (expFind pairs n).map Prod.snd = traceFind pairs n := by
  unfold expFind traceFind
  induction pairs with
  | nil => rfl
  | cons c l ih =>
    rw [List.findSome?_cons, List.findSome?_cons]
    by_cases e1 : c.1 = n
    · simp [e1]
    · by_cases e2 : c.2 = n
      · simp [e1, e2]
      · simpa [e1, e2] using ih

theorem expFind_some {pairs : List (ν × ν)} {n : ν} {c : (ν × ν) × ν}
    (h : expFind pairs n = some c) :
    c.1 ∈ pairs ∧ ((c.1.1 = n ∧ c.2 = c.1.2) ∨ (c.1.2 = n ∧ c.2 = c.1.1)) := by
  unfold expFind at h
  obtain ⟨d, hd, he⟩ := List.exists_of_findSome?_eq_some h
  split at he
  · rename_i e
    rw [Option.some.injEq] at he
    subst he
    exact ⟨hd, Or.inl ⟨e, rfl⟩⟩
  · split at he
    · rename_i e
      rw [Option.some.injEq] at he
      subst he
      exact ⟨hd, Or.inr ⟨e, rfl⟩⟩
    · simp at he

/-- The pair written when the loop comes to the edge `n`, if any. -/
def expPair (names : List ν) (pairs : List (ν × ν)) (n : ν) : Option (ν × ν) :=
  match expFind pairs n with
  | some c => if names.idxOf c.2 < names.idxOf n then some c.1 else none
  | none => none

/-- A pair with the maps of its edges. -/
def withMaps (t : Tensor ν σ α) (c : ν × ν) : ExpPair ν σ :=
  ((c.1, mapOf t c.1), (c.2, mapOf t c.2))

theorem edges_getD {t : Tensor ν σ α} (h : WF t) {n : ν} (hn : n ∈ t.names) :
    (t.core.edges.getD (t.names.idxOf n) {}).map = mapOf t n := by
  have hi := List.idxOf_lt_length_iff.2 hn
  rw [List.getD_eq_getElem?_getD, edges_named h, List.getElem?_map, List.getElem?_eq_getElem hi,
    List.getElem_idxOf]
  rfl

theorem expLoop_spec {t : Tensor ν σ α} (h : WF t) {pairs : List (ν × ν)}
    (hn : (pairNames pairs).Nodup) (hs : ∀ n ∈ pairNames pairs, n ∈ t.names) :
    ∀ k ≤ t.names.length, ∀ (inv : List ℕ) (room : ℕ) (acc : List (ExpPair ν σ)),
      (∀ i, ∀ hi : i < k, ∀ hi' : i < t.names.length,
        i ∈ inv ↔ ∃ m, traceFind pairs t.names[i] = some m ∧ k ≤ t.names.idxOf m) →
      expLoop (nameToIndex t.names) t.core.edges pairs (t.names.zipIdx.take k).reverse inv
        (room + ((t.names.take k).filterMap (expPair t.names pairs)).length) acc =
        .ok (room, ((t.names.take k).filterMap (expPair t.names pairs)).map (withMaps t) ++ acc) := by
  intro k
  induction k with
  | zero => intro _ inv room acc _; rfl
  | succ k ih =>
    intro hk inv room acc hinv
    have hk' : k < t.names.length := hk
    have hL : k < t.names.zipIdx.length := by simpa using hk'
    have hLk : t.names.zipIdx[k] = (t.names[k], k) := by simp
    rw [List.take_succ_eq_append_getElem hL, List.take_succ_eq_append_getElem hk',
      List.reverse_append, hLk, List.reverse_singleton, List.singleton_append, List.filterMap_append]
    unfold expLoop
    dsimp only
    have hidx : t.names.idxOf t.names[k] = k := h.nodup.idxOf_getElem k hk'
    have hkinv := hinv k (Nat.lt_succ_self k) hk'
    have hat : ∀ n ∈ t.names, OMap.find? (nameToIndex t.names) n = some (t.names.idxOf n) :=
      fun n hn => (C09_name_to_index t.names h.nodup _ _).2 (by
        rw [List.getElem?_eq_getElem (List.idxOf_lt_length_iff.2 hn), List.getElem_idxOf])
    have heq : ∀ m ∈ t.names, t.names.idxOf m = k → m = t.names[k] := by
      intro m hm he
      have := List.getElem_idxOf (List.idxOf_lt_length_iff.2 hm)
      simp only [he] at this
      exact this.symm
    by_cases hin : k ∈ inv
    · rw [if_pos hin]
      obtain ⟨m, hm, hm'⟩ := hkinv.1 hin
      have hp : expPair t.names pairs t.names[k] = none := by
        unfold expPair
        rw [← expFind_traceFind] at hm
        obtain ⟨c, hc, rfl⟩ := Option.map_eq_some_iff.1 hm
        rw [hc]
        dsimp only
        rw [if_neg]
        rw [hidx]; omega
      have hnil : [t.names[k]].filterMap (expPair t.names pairs) = [] := by simp [hp]
      rw [hnil, List.append_nil]
      refine ih (by omega) inv room acc fun i hi hi' => ?_
      rw [hinv i (by omega) hi']
      refine exists_congr fun m' => and_congr_right fun hm1 => ?_
      constructor
      · omega
      · intro hge
        rcases Nat.lt_or_ge k (t.names.idxOf m') with h' | h'
        · exact h'
        · exfalso
          have := heq m' (hs _ (traceFind_mem hn hm1)) (by omega)
          subst this
          have := traceFind_symm hn hm1
          rw [hm] at this
          rw [Option.some.injEq] at this
          rw [this, h.nodup.idxOf_getElem i hi'] at hm'
          omega
    · rw [if_neg hin]
      cases hf : expFind pairs t.names[k] with
      | none =>
        have hft : traceFind pairs t.names[k] = none := by rw [← expFind_traceFind, hf]; rfl
        have hp : expPair t.names pairs t.names[k] = none := by
          unfold expPair
          rw [hf]
        have hnil : [t.names[k]].filterMap (expPair t.names pairs) = [] := by simp [hp]
        rw [hnil, List.append_nil]
        dsimp only
        refine ih (by omega) inv room acc fun i hi hi' => ?_
        rw [hinv i (by omega) hi']
        refine exists_congr fun m' => and_congr_right fun hm1 => ?_
        constructor
        · omega
        · intro hge
          rcases Nat.lt_or_ge k (t.names.idxOf m') with h' | h'
          · exact h'
          · exfalso
            have := heq m' (hs _ (traceFind_mem hn hm1)) (by omega)
            subst this
            have := traceFind_symm hn hm1
            rw [hft] at this
            simp at this
      | some c =>
        have hft : traceFind pairs t.names[k] = some c.2 := by rw [← expFind_traceFind, hf]; rfl
        obtain ⟨hcp, hc2⟩ := expFind_some hf
        have hmn : c.2 ∈ t.names := hs _ (traceFind_mem hn hft)
        have m1 := hs _ (mem_pairNames.2 ⟨c.1, hcp, Or.inl rfl⟩)
        have m2 := hs _ (mem_pairNames.2 ⟨c.1, hcp, Or.inr rfl⟩)
        have hmlt : t.names.idxOf c.2 < k := by
          have h1 : ¬ (k + 1 ≤ t.names.idxOf c.2) := fun hc => hin (hkinv.2 ⟨c.2, hft, hc⟩)
          have h2 : t.names.idxOf c.2 ≠ k := by
            intro hc
            exact traceFind_ne hn hft (heq _ hmn hc).symm
          omega
        have hp : expPair t.names pairs t.names[k] = some c.1 := by
          unfold expPair
          rw [hf]
          dsimp only
          rw [hidx, if_pos hmlt]
        have hone : [t.names[k]].filterMap (expPair t.names pairs) = [c.1] := by simp [hp]
        rw [hone, List.length_append]
        dsimp only
        rw [hat _ m1, hat _ m2, hat _ hmn]
        dsimp only
        rw [edges_getD h m1, edges_getD h m2]
        show expLoop _ _ _ _ _ (room + List.length (List.filterMap (expPair t.names pairs)
          (List.take k t.names))) _ = _
        rw [ih (by omega) (t.names.idxOf c.2 :: inv) room _ fun i hi hi' => ?_]
        · rw [List.map_append, List.append_assoc]
          rfl
        · rw [List.mem_cons, hinv i (by omega) hi']
          constructor
          · rintro (rfl | ⟨m', h1, h2⟩)
            · refine ⟨t.names[k], ?_, by rw [hidx]⟩
              rw [List.getElem_idxOf]
              exact traceFind_symm hn hft
            · exact ⟨m', h1, by omega⟩
          · rintro ⟨m', h1, h2⟩
            rcases Nat.lt_or_ge k (t.names.idxOf m') with h' | h'
            · exact Or.inr ⟨m', h1, h'⟩
            · left
              have := heq m' (hs _ (traceFind_mem hn h1)) (by omega)
              subst this
              have := traceFind_symm hn h1
              rw [hft, Option.some.injEq] at this
              rw [this, h.nodup.idxOf_getElem i hi']

theorem pairs_nodup {pairs : List (ν × ν)} (hn : (pairNames pairs).Nodup) : pairs.Nodup := by
  induction pairs with
  | nil => simp
  | cons c l ih =>
    rw [pairNames_cons, List.nodup_cons, List.nodup_cons] at hn
    rw [List.nodup_cons]
    refine ⟨fun hc => hn.1 ?_, ih hn.2.2⟩
    exact List.mem_cons_of_mem _ (mem_pairNames.2 ⟨c, hc, Or.inl rfl⟩)

/-- Two pairs with a common name are the same. -/
theorem pairs_unique {pairs : List (ν × ν)} (hn : (pairNames pairs).Nodup) {c d : ν × ν}
    (hc : c ∈ pairs) (hd : d ∈ pairs) {n : ν} (h1 : n = c.1 ∨ n = c.2) (h2 : n = d.1 ∨ n = d.2) :
    c = d := by
  induction pairs with
  | nil => simp at hc
  | cons x l ih =>
    rw [pairNames_cons, List.nodup_cons, List.nodup_cons, List.mem_cons, not_or] at hn
    obtain ⟨⟨_, a1⟩, a2, a3⟩ := hn
    have key : ∀ y ∈ l, (n = y.1 ∨ n = y.2) → ¬ (n = x.1 ∨ n = x.2) := by
      intro y hy h h'
      have hm : n ∈ pairNames l := mem_pairNames.2 ⟨y, hy, h⟩
      rcases h' with rfl | rfl
      · exact a1 hm
      · exact a2 hm
    rcases List.mem_cons.1 hc with e | hc' <;> rcases List.mem_cons.1 hd with e' | hd'
    · rw [e, e']
    · exact absurd (e ▸ h1) (key d hd' h2)
    · exact absurd (e' ▸ h2) (key c hc' h1)
    · exact ih a3 hc' hd'

theorem expPair_some {names : List ν} {pairs : List (ν × ν)} {n : ν} {c : ν × ν}
    (h : expPair names pairs n = some c) :
    c ∈ pairs ∧ ((c.1 = n ∧ names.idxOf c.2 < names.idxOf n) ∨
      (c.2 = n ∧ names.idxOf c.1 < names.idxOf n)) := by
  unfold expPair at h
  cases hf : expFind pairs n with
  | none => rw [hf] at h; simp at h
  | some d =>
    rw [hf] at h
    dsimp only at h
    split at h
    · rename_i hlt
      rw [Option.some.injEq] at h
      subst h
      obtain ⟨h1, h2⟩ := expFind_some hf
      refine ⟨h1, ?_⟩
      rcases h2 with ⟨e1, e2⟩ | ⟨e1, e2⟩
      · exact Or.inl ⟨e1, by rw [← e2]; exact hlt⟩
      · exact Or.inr ⟨e1, by rw [← e2]; exact hlt⟩
    · simp at h

theorem expPair_of {names : List ν} {pairs : List (ν × ν)} (hn : (pairNames pairs).Nodup) {n m : ν}
    {c : ν × ν} (hc : c ∈ pairs) (h : (c.1 = n ∧ c.2 = m) ∨ (c.2 = n ∧ c.1 = m))
    (hlt : names.idxOf m < names.idxOf n) : expPair names pairs n = some c := by
  have hft : traceFind pairs n = some m := by
    rw [traceFind_iff hn]
    rcases h with ⟨rfl, rfl⟩ | ⟨rfl, rfl⟩
    · exact Or.inl hc
    · exact Or.inr hc
  rw [← expFind_traceFind] at hft
  obtain ⟨d, hd, rfl⟩ := Option.map_eq_some_iff.1 hft
  have hdc : d.1 = c := by
    obtain ⟨h1, h2⟩ := expFind_some hd
    refine pairs_unique hn h1 hc (n := n) ?_ ?_
    · rcases h2 with ⟨e, _⟩ | ⟨e, _⟩
      · exact Or.inl e.symm
      · exact Or.inr e.symm
    · rcases h with ⟨e, _⟩ | ⟨e, _⟩
      · exact Or.inl e.symm
      · exact Or.inr e.symm
  unfold expPair
  rw [hd]
  dsimp only
  rw [if_pos hlt, hdc]

theorem expPairs_perm {names : List ν} (hnn : names.Nodup) {pairs : List (ν × ν)}
    (hn : (pairNames pairs).Nodup) (hs : ∀ n ∈ pairNames pairs, n ∈ names) :
    (names.filterMap (expPair names pairs)).Perm pairs := by
  refine (List.perm_ext_iff_of_nodup ?_ (pairs_nodup hn)).2 fun c => ?_
  · refine List.Nodup.filterMap ?_ hnn
    intro n n' b hb hb'
    obtain ⟨_, h2⟩ := expPair_some hb
    obtain ⟨_, h2'⟩ := expPair_some hb'
    rcases h2 with ⟨e, l⟩ | ⟨e, l⟩ <;> rcases h2' with ⟨e', l'⟩ | ⟨e', l'⟩
    · rw [← e, ← e']
    · rw [← e] at l; rw [← e'] at l'; omega
    · rw [← e] at l; rw [← e'] at l'; omega
    · rw [← e, ← e']
  · rw [List.mem_filterMap]
    constructor
    · rintro ⟨n, _, hb⟩
      exact (expPair_some hb).1
    · intro hc
      have m1 := hs _ (mem_pairNames.2 ⟨c, hc, Or.inl rfl⟩)
      have m2 := hs _ (mem_pairNames.2 ⟨c, hc, Or.inr rfl⟩)
      have f1 := (traceFind_iff hn (n := c.1) (m := c.2)).2 (Or.inl hc)
      have hne := traceFind_ne hn f1
      rcases Nat.lt_trichotomy (names.idxOf c.1) (names.idxOf c.2) with hlt | he | hlt
      · exact ⟨c.2, m2, expPair_of hn hc (Or.inr ⟨rfl, rfl⟩) hlt⟩
      · exact absurd ((List.idxOf_inj m1).1 he) hne
      · exact ⟨c.1, m1, expPair_of hn hc (Or.inl ⟨rfl, rfl⟩) hlt⟩

theorem pairNames_length (pairs : List (ν × ν)) : (pairNames pairs).length = 2 * pairs.length := by
  induction pairs with
  | nil => rfl
  | cons c l ih => rw [pairNames_cons, List.length_cons, List.length_cons, ih, List.length_cons]; ring

/-- All edges in pairs: everything is written. -/
theorem expLoop_all {t : Tensor ν σ α} (h : WF t) {pairs : List (ν × ν)}
    (hp : t.names.Perm (pairNames pairs)) :
    expLoop (nameToIndex t.names) t.core.edges pairs t.names.zipIdx.reverse []
      (t.names.length / 2) [] =
      .ok (0, (t.names.filterMap (expPair t.names pairs)).map (withMaps t)) := by
  have hn : (pairNames pairs).Nodup := hp.nodup_iff.1 h.nodup
  have hs : ∀ n ∈ pairNames pairs, n ∈ t.names := fun n hn => hp.mem_iff.2 hn
  have hl := expLoop_spec h hn hs t.names.length (Nat.le_refl _) [] 0 [] (by
    intro i hi hi'
    constructor
    · intro hc; simp at hc
    · rintro ⟨m, h1, h2⟩
      have := List.idxOf_lt_length_iff.2 (hs _ (traceFind_mem hn h1))
      omega)
  rw [List.take_of_length_le (by simp), List.take_length, List.append_nil, Nat.zero_add,
    (expPairs_perm h.nodup hn hs).length_eq] at hl
  have : t.names.length / 2 = pairs.length := by
    rw [hp.length_eq, pairNames_length]; omega
  rw [this]
  exact hl

end TAT
