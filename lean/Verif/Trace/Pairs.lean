import Verif.Trace.Spec
import Verif.Contract.Plan
import Verif.Contract.Elements
import Verif.Contract.Sign

/-!
# The pairs found by the loop of the trace
-/

set_option linter.unusedSectionVars false

namespace TAT

variable {ν σ α : Type} [LinearOrder ν] [TatSym σ]

theorem pairNames_cons (c : ν × ν) (l : List (ν × ν)) :
    pairNames (c :: l) = c.1 :: c.2 :: pairNames l := rfl

theorem mem_pairNames {pairs : List (ν × ν)} {n : ν} :
    n ∈ pairNames pairs ↔ ∃ c ∈ pairs, n = c.1 ∨ n = c.2 := by
  unfold pairNames
  simp [List.mem_flatMap]

theorem traceFind_iff {pairs : List (ν × ν)} (hn : (pairNames pairs).Nodup) {n m : ν} :
    traceFind pairs n = some m ↔ (n, m) ∈ pairs ∨ (m, n) ∈ pairs := by
  induction pairs with
  | nil => simp [traceFind]
  | cons c l ih =>
    rw [pairNames_cons, List.nodup_cons, List.nodup_cons] at hn
    obtain ⟨h1, h2, h3⟩ := hn
    rw [List.mem_cons, not_or] at h1
    have hl := ih h3
    have hm1 : ∀ x, (c.1, x) ∉ l ∧ (x, c.1) ∉ l := fun x =>
      ⟨fun h => h1.2 (mem_pairNames.2 ⟨_, h, Or.inl rfl⟩),
        fun h => h1.2 (mem_pairNames.2 ⟨_, h, Or.inr rfl⟩)⟩
    have hm2 : ∀ x, (c.2, x) ∉ l ∧ (x, c.2) ∉ l := fun x =>
      ⟨fun h => h2 (mem_pairNames.2 ⟨_, h, Or.inl rfl⟩),
        fun h => h2 (mem_pairNames.2 ⟨_, h, Or.inr rfl⟩)⟩
    have hcons : traceFind (c :: l) n =
        if c.1 = n then some c.2 else if c.2 = n then some c.1 else traceFind l n := by
      unfold traceFind
      rw [List.findSome?_cons]
      by_cases e1 : c.1 = n
      · simp [e1]
      · by_cases e2 : c.2 = n
        · simp [e1, e2]
        · simp [e1, e2]
    rw [hcons]
    obtain ⟨a, b⟩ := c
    by_cases e1 : a = n
    · subst e1
      simp only [if_true, List.mem_cons, Prod.mk.injEq, true_and, (hm1 m).1, (hm1 m).2, or_false,
        Option.some.injEq]
      constructor
      · rintro rfl; exact Or.inl rfl
      · rintro (h | ⟨rfl, h⟩)
        · exact h.symm
        · exact absurd h h1.1
    · by_cases e2 : b = n
      · subst e2
        simp only [if_neg e1, if_true, List.mem_cons, Prod.mk.injEq, (hm2 m).1, (hm2 m).2, or_false,
          Option.some.injEq, and_true]
        constructor
        · rintro rfl; exact Or.inr rfl
        · rintro (⟨h, _⟩ | h)
          · exact absurd h.symm e1
          · exact h.symm
      · simp only [if_neg e1, if_neg e2, hl, List.mem_cons, Prod.mk.injEq, Ne.symm e1, Ne.symm e2,
          false_and, and_false, false_or]

theorem traceFind_symm {pairs : List (ν × ν)} (hn : (pairNames pairs).Nodup) {n m : ν}
    (h : traceFind pairs n = some m) : traceFind pairs m = some n := by
  rw [traceFind_iff hn] at h ⊢
  exact h.symm

theorem traceFind_ne {pairs : List (ν × ν)} (hn : (pairNames pairs).Nodup) {n m : ν}
    (h : traceFind pairs n = some m) : n ≠ m := by
  rw [traceFind_iff hn] at h
  rintro rfl
  have : (n, n) ∈ pairs := by simpa using h
  clear h
  induction pairs with
  | nil => simp at this
  | cons c l ih =>
    rw [pairNames_cons, List.nodup_cons, List.nodup_cons] at hn
    rcases List.mem_cons.1 this with rfl | h
    · exact hn.1 (by simp)
    · exact ih hn.2.2 h

theorem traceFind_mem {pairs : List (ν × ν)} (hn : (pairNames pairs).Nodup) {n m : ν}
    (h : traceFind pairs n = some m) : m ∈ pairNames pairs := by
  rw [traceFind_iff hn] at h
  rcases h with h | h
  · exact mem_pairNames.2 ⟨_, h, Or.inr rfl⟩
  · exact mem_pairNames.2 ⟨_, h, Or.inl rfl⟩

/-- The pair pushed when the loop comes to the edge `n`, if any. -/
def tracePair (t : Tensor ν σ α) (pairs : List (ν × ν)) (n : ν) : Option (ν × ν) :=
  match traceFind pairs n with
  | some m =>
    if t.names.idxOf m < t.names.idxOf n then
      some (if TatSym.isFermi σ && (edgeOf t n).arrow then (n, m) else (m, n))
    else none
  | none => none

theorem traceLoop_spec {t : Tensor ν σ α} (h : WF t) {pairs : List (ν × ν)}
    (hn : (pairNames pairs).Nodup) (hs : ∀ n ∈ pairNames pairs, n ∈ t.names) :
    ∀ k ≤ t.names.length, ∀ inv : List ℕ,
      (∀ i, ∀ hi : i < k, ∀ hi' : i < t.names.length,
        i ∈ inv ↔ ∃ m, traceFind pairs t.names[i] = some m ∧ k ≤ t.names.idxOf m) →
      traceLoop (nameToIndex t.names) pairs
        ((t.names.zip t.core.edges).zipIdx.take k).reverse inv =
        .ok ((t.names.take k).reverse.filterMap (tracePair t pairs)) := by
  intro k
  induction k with
  | zero => intro _ inv _; rfl
  | succ k ih =>
    intro hk inv hinv
    have hk' : k < t.names.length := hk
    have hL : k < (t.names.zip t.core.edges).zipIdx.length := by
      rw [zip_named h]; simpa using hk'
    have hLk : (t.names.zip t.core.edges).zipIdx[k] = ((t.names[k], edgeOf t t.names[k]), k) := by
      simp only [List.getElem_zipIdx, zip_named h, List.getElem_map, Nat.zero_add]
    rw [List.take_succ_eq_append_getElem hL, List.take_succ_eq_append_getElem hk', List.reverse_append,
      List.reverse_append, hLk, List.reverse_singleton, List.reverse_singleton, List.singleton_append,
      List.singleton_append, List.filterMap_cons]
    unfold traceLoop
    dsimp only
    have hidx : t.names.idxOf t.names[k] = k := h.nodup.idxOf_getElem k hk'
    have hkinv := hinv k (Nat.lt_succ_self k) hk'
    by_cases hin : k ∈ inv
    · rw [if_pos hin]
      obtain ⟨m, hm, hm'⟩ := hkinv.1 hin
      have hp : tracePair t pairs t.names[k] = none := by
        unfold tracePair
        rw [hm]
        dsimp only
        rw [if_neg]
        rw [hidx]; omega
      rw [hp]
      refine ih (by omega) inv fun i hi hi' => ?_
      rw [hinv i (by omega) hi']
      refine exists_congr fun m' => and_congr_right fun hm1 => ?_
      constructor
      · omega
      · intro hge
        rcases Nat.lt_or_ge k (t.names.idxOf m') with h' | h'
        · exact h'
        · exfalso
          have he : t.names.idxOf m' = k := by omega
          have hm'n : m' ∈ t.names := hs _ (traceFind_mem hn hm1)
          have : m' = t.names[k] := by
            have := List.getElem_idxOf (List.idxOf_lt_length_iff.2 hm'n)
            simp only [he] at this
            exact this.symm
          subst this
          have := traceFind_symm hn hm1
          rw [hm] at this
          rw [Option.some.injEq] at this
          rw [this, h.nodup.idxOf_getElem i hi'] at hm'
          omega
    · rw [if_neg hin]
      cases hf : traceFind pairs t.names[k] with
      | none =>
        have hp : tracePair t pairs t.names[k] = none := by
          unfold tracePair
          rw [hf]
        rw [hp]
        dsimp only
        refine ih (by omega) inv fun i hi hi' => ?_
        rw [hinv i (by omega) hi']
        refine exists_congr fun m' => and_congr_right fun hm1 => ?_
        constructor
        · omega
        · intro hge
          rcases Nat.lt_or_ge k (t.names.idxOf m') with h' | h'
          · exact h'
          · exfalso
            have he : t.names.idxOf m' = k := by omega
            have hm'n : m' ∈ t.names := hs _ (traceFind_mem hn hm1)
            have : m' = t.names[k] := by
              have := List.getElem_idxOf (List.idxOf_lt_length_iff.2 hm'n)
              simp only [he] at this
              exact this.symm
            subst this
            have := traceFind_symm hn hm1
            rw [hf] at this
            simp at this
      | some m =>
        have hmn : m ∈ t.names := hs _ (traceFind_mem hn hf)
        have hmlt : t.names.idxOf m < k := by
          have h1 : ¬ (k + 1 ≤ t.names.idxOf m) := fun hc => hin (hkinv.2 ⟨m, hf, hc⟩)
          have h2 : t.names.idxOf m ≠ k := by
            intro hc
            have := List.getElem_idxOf (List.idxOf_lt_length_iff.2 hmn)
            simp only [hc] at this
            exact traceFind_ne hn hf this
          omega
        have hp : tracePair t pairs t.names[k] =
            some (if TatSym.isFermi σ && (edgeOf t t.names[k]).arrow then (t.names[k], m)
              else (m, t.names[k])) := by
          unfold tracePair
          rw [hf]
          dsimp only
          rw [hidx, if_pos hmlt]
        rw [hp]
        dsimp only
        have hidx' : OMap.find? (nameToIndex t.names) m = some (t.names.idxOf m) :=
          (C09_name_to_index t.names h.nodup _ _).2 (by
            rw [List.getElem?_eq_getElem (List.idxOf_lt_length_iff.2 hmn), List.getElem_idxOf])
        rw [hidx']
        dsimp only
        rw [ih (by omega) (t.names.idxOf m :: inv) fun i hi hi' => ?_]
        · rfl
        · rw [List.mem_cons, hinv i (by omega) hi']
          constructor
          · rintro (rfl | ⟨m', h1, h2⟩)
            · refine ⟨t.names[k], ?_, by rw [hidx]⟩
              rw [List.getElem_idxOf]
              exact traceFind_symm hn hf
            · exact ⟨m', h1, by omega⟩
          · rintro ⟨m', h1, h2⟩
            rcases Nat.lt_or_ge k (t.names.idxOf m') with h' | h'
            · exact Or.inr ⟨m', h1, h'⟩
            · left
              have he : t.names.idxOf m' = k := by omega
              have hm'n : m' ∈ t.names := hs _ (traceFind_mem hn h1)
              have : m' = t.names[k] := by
                have := List.getElem_idxOf (List.idxOf_lt_length_iff.2 hm'n)
                simp only [he] at this
                exact this.symm
              subst this
              have := traceFind_symm hn h1
              rw [hf, Option.some.injEq] at this
              rw [this, h.nodup.idxOf_getElem i hi']

/-- The direction in which a pair is taken: the first edge comes earlier; with fermions, if the later
edge points out, it is the first. -/
def orient (t : Tensor ν σ α) (c : ν × ν) : ν × ν :=
  let e := if t.names.idxOf c.1 < t.names.idxOf c.2 then c else c.swap
  if TatSym.isFermi σ && (edgeOf t e.2).arrow then e.swap else e

theorem orient_or (t : Tensor ν σ α) (c : ν × ν) : orient t c = c ∨ orient t c = c.swap := by
  unfold orient
  dsimp only
  split <;> split <;> simp

theorem orient_fermi {t : Tensor ν σ α} (hf : TatSym.isFermi σ = true) {c : ν × ν}
    (ha : (edgeOf t c.1).arrow ≠ (edgeOf t c.2).arrow) : orient t c = (outOf t c, inOf t c) := by
  unfold orient outOf inOf
  dsimp only
  rw [hf, Bool.true_and]
  by_cases hlt : t.names.idxOf c.1 < t.names.idxOf c.2 <;>
  cases h1 : (edgeOf t c.1).arrow <;> cases h2 : (edgeOf t c.2).arrow <;>
  first
  | (rw [h1, h2] at ha; exact absurd rfl ha)
  | (simp only [hlt, if_true, if_false, Prod.snd_swap, h1, h2, Prod.swap_swap, Bool.false_eq_true]
     try rfl)

theorem traceLoop_perm {t : Tensor ν σ α} (h : WF t) {pairs : List (ν × ν)}
    (hn : (pairNames pairs).Nodup) (hs : ∀ n ∈ pairNames pairs, n ∈ t.names) :
    ∃ cs, traceLoop (nameToIndex t.names) pairs (t.names.zip t.core.edges).zipIdx.reverse [] = .ok cs ∧
      cs.Perm (pairs.map (orient t)) := by
  have hl := traceLoop_spec h hn hs t.names.length (Nat.le_refl _) [] (by
    intro i hi hi'
    constructor
    · intro hc; simp at hc
    · rintro ⟨m, h1, h2⟩
      have := List.idxOf_lt_length_iff.2 (hs _ (traceFind_mem hn h1))
      omega)
  rw [List.take_of_length_le (by rw [zip_named h]; simp), List.take_length] at hl
  refine ⟨_, hl, ?_⟩
  have hidx : ∀ a ∈ t.names, ∀ b ∈ t.names, t.names.idxOf a = t.names.idxOf b → a = b := by
    intro a ha b hb he
    exact (List.idxOf_inj ha).1 he
  have hmemp : ∀ n b, tracePair t pairs n = some b → ∃ m, traceFind pairs n = some m ∧
      t.names.idxOf m < t.names.idxOf n ∧
      b = if TatSym.isFermi σ && (edgeOf t n).arrow then (n, m) else (m, n) := by
    intro n b hb
    unfold tracePair at hb
    cases hf : traceFind pairs n with
    | none => rw [hf] at hb; simp at hb
    | some m =>
      rw [hf] at hb
      dsimp only at hb
      split at hb
      · rename_i hlt
        rw [Option.some.injEq] at hb
        exact ⟨m, rfl, hlt, hb.symm⟩
      · simp at hb
  have hnp : pairs.Nodup := by
    clear hl hmemp hs
    induction pairs with
    | nil => simp
    | cons c l ih =>
      rw [pairNames_cons, List.nodup_cons, List.nodup_cons] at hn
      rw [List.nodup_cons]
      refine ⟨fun hc => hn.1 ?_, ih hn.2.2⟩
      exact List.mem_cons_of_mem _ (mem_pairNames.2 ⟨c, hc, Or.inl rfl⟩)
  refine (List.perm_ext_iff_of_nodup ?_ ?_).2 fun b => ?_
  · refine List.Nodup.filterMap ?_ (List.nodup_reverse.2 h.nodup)
    intro n n' b hb hb'
    obtain ⟨m, h1, h2, h3⟩ := hmemp n b hb
    obtain ⟨m', h1', h2', h3'⟩ := hmemp n' b hb'
    rw [h3] at h3'
    split at h3' <;> split at h3' <;> rw [Prod.mk.injEq] at h3' <;> obtain ⟨e1, e2⟩ := h3'
    · exact e1
    · rw [e1, e2] at h2; omega
    · rw [e1, e2] at h2; omega
    · exact e2
  · refine List.Nodup.map_on ?_ hnp
    intro c hc d hd he
    have hcd : c = d ∨ c = d.swap := by
      rcases orient_or t c with h1 | h1 <;> rcases orient_or t d with h2 | h2 <;>
        rw [h1, h2] at he
      · exact Or.inl he
      · exact Or.inr he
      · right; rw [← he, Prod.swap_swap]
      · left; exact Prod.swap_injective he
    rcases hcd with rfl | rfl
    · rfl
    · exfalso
      have h1 := (traceFind_iff hn (n := d.2) (m := d.1)).2 (Or.inl hc)
      have h2 := traceFind_ne hn h1
      have : ∀ l : List (ν × ν), (pairNames l).Nodup → d.swap ∈ l → d ∈ l → False := by
        intro l
        induction l with
        | nil => intro _ h; simp at h
        | cons x l ih =>
          intro hn hc hd
          rw [pairNames_cons, List.nodup_cons, List.nodup_cons] at hn
          rcases List.mem_cons.1 hc with rfl | hc <;> rcases List.mem_cons.1 hd with e | hd
          · exact h2 (congrArg Prod.snd e)
          · exact hn.1 (List.mem_cons_of_mem _ (mem_pairNames.2 ⟨d, hd, Or.inr rfl⟩))
          · rw [← e] at hn
            exact hn.1 (List.mem_cons_of_mem _ (mem_pairNames.2 ⟨d.swap, hc, Or.inr rfl⟩))
          · exact ih hn.2.2 hc hd
      exact this pairs hn hc hd
  · rw [List.mem_filterMap, List.mem_map]
    constructor
    · rintro ⟨n, hnn, hb⟩
      obtain ⟨m, h1, h2, h3⟩ := hmemp n b hb
      rcases (traceFind_iff hn).1 h1 with hc | hc
      · refine ⟨_, hc, ?_⟩
        unfold orient
        dsimp only
        rw [if_neg (c := t.names.idxOf n < t.names.idxOf m) (by omega), h3]
        rfl
      · refine ⟨_, hc, ?_⟩
        unfold orient
        dsimp only
        rw [if_pos h2, h3]
        rfl
    · rintro ⟨c, hc, rfl⟩
      have m1 := hs _ (mem_pairNames.2 ⟨c, hc, Or.inl rfl⟩)
      have m2 := hs _ (mem_pairNames.2 ⟨c, hc, Or.inr rfl⟩)
      have f1 := (traceFind_iff hn (n := c.1) (m := c.2)).2 (Or.inl hc)
      have f2 := traceFind_symm hn f1
      have hne := traceFind_ne hn f1
      unfold orient
      dsimp only
      by_cases hlt : t.names.idxOf c.1 < t.names.idxOf c.2
      · refine ⟨c.2, List.mem_reverse.2 m2, ?_⟩
        unfold tracePair
        rw [f2]
        dsimp only
        rw [if_pos hlt, if_pos hlt]
        rfl
      · refine ⟨c.1, List.mem_reverse.2 m1, ?_⟩
        have : t.names.idxOf c.2 < t.names.idxOf c.1 := by
          rcases Nat.lt_or_ge (t.names.idxOf c.2) (t.names.idxOf c.1) with h' | h'
          · exact h'
          · exact absurd (hidx _ m1 _ m2 (by omega)) hne
        unfold tracePair
        rw [f1]
        dsimp only
        rw [if_pos this, if_neg hlt]
        rfl

end TAT
