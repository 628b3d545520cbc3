import Verif.Core.Spec
import Mathlib.Algebra.BigOperators.Group.List.Basic

/-!
# Lemmas about `loop_edge`, block enumeration and the constructor of `Core`
-/

namespace TAT

variable {σ α : Type}

/-! ## `carry` -/

theorem carry_eq (sizes : List ℕ) (pos : ℕ) (it : List ℕ) :
    carry sizes pos it =
      if (it.set pos (it.getD pos 0 + 1)).getD pos 0 = sizes.getD pos 0 then
        match pos with
        | 0 => none
        | p + 1 => carry sizes p ((it.set (p + 1) (it.getD (p + 1) 0 + 1)).set (p + 1) 0)
      else some (it.set pos (it.getD pos 0 + 1), pos) := by
  rw [carry.eq_def]
  cases pos <;> rfl

theorem carry_spec {dims it : List ℕ} (hb : InBox dims it) {e : ℕ} (he : e < dims.length) :
    (dims.prod ≤ rowMajor dims it + weight dims e → carry dims e it = none) ∧
    (rowMajor dims it + weight dims e < dims.prod → ∃ e', e' ≤ e ∧
      carry dims e it = some (unravel dims (rowMajor dims it + weight dims e), e') ∧
      (∀ i, i < e' → (unravel dims (rowMajor dims it + weight dims e)).getD i 0 = it.getD i 0) ∧
      (unravel dims (rowMajor dims it + weight dims e)).getD e' 0 ≠ it.getD e' 0) := by
  induction e generalizing it with
  | zero =>
    have hl := hb.length
    have hlt := (inBox_iff.1 hb).2 0 he
    rw [carry_eq, getD_set_self (by omega)]
    have h0 := rowMajor_set (x := it.getD 0 0 + 1) hl he
    by_cases hc : it.getD 0 0 + 1 = dims.getD 0 0
    · rw [if_pos hc]
      refine ⟨fun _ => rfl, fun h => ?_⟩
      exfalso
      have h1 := rowMajor_set (x := 0) hl he
      rw [weight_zero he, ← hc, Nat.add_mul] at h
      omega
    · rw [if_neg hc]
      have hb' : InBox dims (it.set 0 (it.getD 0 0 + 1)) := hb.set (by omega)
      have hN : rowMajor dims (it.set 0 (it.getD 0 0 + 1)) = rowMajor dims it + weight dims 0 := by
        rw [Nat.add_mul] at h0; omega
      have hU := unravel_rowMajor hb'
      rw [hN] at hU
      refine ⟨fun h => ?_, fun _ => ⟨0, le_refl _, by rw [hU], by simp, ?_⟩⟩
      · have := rowMajor_lt hb'; omega
      · rw [hU, getD_set_self (by omega)]; omega
  | succ e ih =>
    have hl := hb.length
    have hlt := (inBox_iff.1 hb).2 (e + 1) he
    rw [carry_eq, getD_set_self (by omega)]
    have h0 := rowMajor_set (x := it.getD (e + 1) 0 + 1) hl he
    by_cases hc : it.getD (e + 1) 0 + 1 = dims.getD (e + 1) 0
    · rw [if_pos hc]
      simp only [List.set_set]
      have h1 := rowMajor_set (x := 0) hl he
      have hb' : InBox dims (it.set (e + 1) 0) := hb.set (by omega)
      have hN : rowMajor dims (it.set (e + 1) 0) + weight dims e =
          rowMajor dims it + weight dims (e + 1) := by
        rw [weight_pred he, ← hc, Nat.add_mul]; omega
      have := ih hb' (by omega)
      rw [hN] at this
      refine ⟨this.1, fun h => ?_⟩
      obtain ⟨e', h1, h2, h3, h4⟩ := this.2 h
      refine ⟨e', by omega, h2, ?_, ?_⟩
      · intro i hi
        rw [h3 i hi, getD_set_ne (by omega)]
      · rw [getD_set_ne (by omega)] at h4
        exact h4
    · rw [if_neg hc]
      have hb' : InBox dims (it.set (e + 1) (it.getD (e + 1) 0 + 1)) := hb.set (by omega)
      have hN : rowMajor dims (it.set (e + 1) (it.getD (e + 1) 0 + 1)) =
          rowMajor dims it + weight dims (e + 1) := by
        rw [Nat.add_mul] at h0; omega
      have hU := unravel_rowMajor hb'
      rw [hN] at hU
      refine ⟨fun h => ?_, fun _ => ⟨e + 1, le_refl _, by rw [hU], ?_, ?_⟩⟩
      · have := rowMajor_lt hb'; omega
      · intro i hi
        rw [hU, getD_set_ne (by omega)]
      · rw [hU, getD_set_self (by omega)]; omega

theorem commonPrefix_eq {a b : List ℕ} {e : ℕ} (ha : e < a.length) (hb : e < b.length)
    (h : ∀ i, i < e → b.getD i 0 = a.getD i 0) (hne : b.getD e 0 ≠ a.getD e 0) :
    commonPrefix a b = e := by
  induction e generalizing a b with
  | zero =>
    cases a with
    | nil => simp at ha
    | cons x a =>
      cases b with
      | nil => simp at hb
      | cons y b =>
        simp only [List.getD_cons_zero] at hne
        simp only [commonPrefix, if_neg (Ne.symm hne)]
  | succ e ih =>
    cases a with
    | nil => simp at ha
    | cons x a =>
      cases b with
      | nil => simp at hb
      | cons y b =>
        have h0 := h 0 (by omega)
        simp only [List.getD_cons_zero] at h0
        simp only [commonPrefix, h0, if_true]
        rw [ih (by simpa using ha) (by simpa using hb)
          (fun i hi => by simpa using h (i + 1) (by omega)) (by simpa using hne)]

theorem getD_commonPrefix {a b : List ℕ} {i : ℕ} (h : i < commonPrefix a b) :
    a.getD i 0 = b.getD i 0 := by
  induction a generalizing b i with
  | nil => simp [commonPrefix] at h
  | cons x a ih =>
    cases b with
    | nil => simp [commonPrefix] at h
    | cons y b =>
      by_cases hxy : x = y
      · cases i with
        | zero => simpa using hxy
        | succ i =>
          simp only [commonPrefix, hxy, if_true] at h
          simpa using ih (b := b) (i := i) (by omega)
      · simp [commonPrefix, hxy] at h

theorem commonPrefix_le_right (a b : List ℕ) : commonPrefix a b ≤ b.length := by
  induction a generalizing b with
  | nil => simp [commonPrefix]
  | cons x a ih =>
    cases b with
    | nil => simp [commonPrefix]
    | cons y b =>
      simp only [commonPrefix, List.length_cons]
      split
      · have := ih b; omega
      · omega

/-! ## `loop_edge` -/

theorem loopFrom_spec {S : Type} {dims : List ℕ} (operate : List ℕ → ℕ → S → ℕ × S)
    (hr : 0 < dims.length) (fuel : ℕ) {it : List ℕ} (hb : InBox dims it) (mc : ℕ) (s : S)
    (hf : dims.prod - rowMajor dims it ≤ fuel) :
    loopFrom dims operate fuel it mc s =
      (((List.range' (rowMajor dims it + 1) (dims.prod - (rowMajor dims it + 1))).map
        (unravel dims)).foldl (visitStep operate)
          (it, (operate it mc s).1, (operate it mc s).2)).2.2 := by
  induction fuel generalizing it mc s with
  | zero => have := rowMajor_lt hb; omega
  | succ fuel ih =>
    have hw : weight dims (dims.length - 1) = 1 := by
      unfold weight
      rw [List.drop_eq_nil_of_le (by omega)]; rfl
    have hc := carry_spec hb (e := dims.length - 1) (by omega)
    rw [hw] at hc
    simp only [loopFrom]
    by_cases hN : rowMajor dims it + 1 < dims.prod
    · obtain ⟨e', h1, h2, h3, h4⟩ := hc.2 hN
      rw [h2]
      have hb' := inBox_unravel hN
      have hrm := rowMajor_unravel hN
      have hcp : commonPrefix it (unravel dims (rowMajor dims it + 1)) = e' := by
        apply commonPrefix_eq _ _ h3 h4
        · have := hb.length; omega
        · rw [unravel_length]; omega
      dsimp only
      have hfuel : dims.prod - rowMajor dims (unravel dims (rowMajor dims it + 1)) ≤ fuel := by
        rw [hrm]; clear hc h3 h4; omega
      rw [ih hb' _ _ hfuel, hrm]
      have hr' : dims.prod - (rowMajor dims it + 1) =
          (dims.prod - (rowMajor dims it + 1 + 1)) + 1 := by omega
      rw [hr', List.range'_succ, List.map_cons, List.foldl_cons]
      have hmin : (if (operate it mc s).1 < e' then (operate it mc s).1 else e') =
          min (operate it mc s).1 e' := by
        rw [Nat.min_def]; split <;> split <;> omega
      simp only [visitStep, hcp, hmin]
    · rw [hc.1 (by omega)]
      have : dims.prod - (rowMajor dims it + 1) = 0 := by omega
      rw [this]
      rfl

theorem loopFrom_tuples {S : Type} {dims : List ℕ} (operate : List ℕ → ℕ → S → ℕ × S)
    (hr : 0 < dims.length) (hp : 0 < dims.prod) (fuel : ℕ) (hf : dims.prod ≤ fuel) (s : S) :
    loopFrom dims operate fuel (List.replicate dims.length 0) 0 s =
      ((tuples dims).foldl (visitStep operate) ([], 0, s)).2.2 := by
  have hz : unravel dims 0 = List.replicate dims.length 0 := by
    clear hr hp hf
    induction dims with
    | nil => rfl
    | cons d ds ih => simp [unravel, ih, List.replicate_succ]
  have hb : InBox dims (List.replicate dims.length 0) := by rw [← hz]; exact inBox_unravel hp
  rw [loopFrom_spec operate hr fuel hb 0 s (by rw [rowMajor_zeros]; omega), rowMajor_zeros,
    tuples_eq]
  obtain ⟨n, hn⟩ : ∃ n, dims.prod = n + 1 := ⟨dims.prod - 1, by omega⟩
  rw [hn, List.range_eq_range', List.range'_succ, List.map_cons, List.foldl_cons, hz]
  simp [visitStep]

theorem prod_lengths_pos {maps : List (List (σ × ℕ))} (h : ∀ m ∈ maps, m ≠ []) :
    0 < (maps.map List.length).prod := by
  induction maps with
  | nil => simp
  | cons m ms ih =>
    rw [List.map_cons, List.prod_cons]
    apply Nat.mul_pos
    · exact List.length_pos_iff.2 (h m (by simp))
    · exact ih (fun m' hm' => h m' (by simp [hm']))

theorem loopEdge_eq {S : Type} {maps : List (List (σ × ℕ))} (rank0 dims0 : S → S)
    (operate : List ℕ → ℕ → S → ℕ × S) (s : S) (h0 : maps ≠ []) (hne : ∀ m ∈ maps, m ≠ []) :
    loopEdge maps rank0 dims0 operate s =
      ((tuples (maps.map List.length)).foldl (visitStep operate) ([], 0, s)).2.2 := by
  unfold loopEdge
  have hlen : maps.length ≠ 0 := by simpa using h0
  have hany : (maps.any fun m => m.isEmpty) = false := by
    rw [List.any_eq_false]
    intro m hm
    simpa using hne m hm
  rw [if_neg hlen, hany]
  simp only [Bool.false_eq_true, if_false]
  have := loopFrom_tuples (dims := maps.map List.length) operate (by simp; omega)
    (prod_lengths_pos hne) _ (le_refl _) s
  simpa using this

/-! ## block enumeration -/

/-- the entries chosen by an iterator list -/
def entries [Zero σ] (maps : List (List (σ × ℕ))) (it : List ℕ) : List (σ × ℕ) :=
  (List.range maps.length).map (deref maps it)

theorem tuples_entries [Zero σ] (maps : List (List (σ × ℕ))) :
    (tuples (maps.map List.length)).map (entries maps) = choices maps := by
  induction maps with
  | nil => simp [tuples, entries, choices]
  | cons m ms ih =>
    rw [List.map_cons, tuples, choices, List.map_flatMap]
    have hm : (List.range m.length).map (fun i => m.getD i (0, 0)) = m := by
      apply List.ext_getElem
      · simp
      · intro i h1 h2
        have h2' : i < m.length := h2
        simp [h2']
    conv_rhs => rw [← hm, List.flatMap_map]
    apply List.flatMap_congr
    intro i _
    rw [← ih, List.map_map, List.map_map]
    apply List.map_congr_left
    intro it _
    simp only [Function.comp, entries, List.length_cons, List.range_succ_eq_map, List.map_cons,
      List.map_map]
    congr 1

theorem refreshCaches_spec [TatSym σ] (maps : List (List (σ × ℕ))) (it : List ℕ) (mc : ℕ)
    (symmetries : List σ) (sizes : List ℕ) (hmc : mc ≤ maps.length)
    (hl1 : symmetries.length = maps.length) (hl2 : sizes.length = maps.length)
    (h1 : ∀ i, i < mc → symmetries.getD i 0 = (deref maps it i).1)
    (h2 : ∀ i, i < mc → sizes.getD i 0 = (((entries maps it).map Prod.snd).take (i + 1)).prod) :
    refreshCaches maps it maps.length mc symmetries sizes =
      ((entries maps it).map Prod.fst,
       (List.range maps.length).map
         fun i => (((entries maps it).map Prod.snd).take (i + 1)).prod) := by
  unfold refreshCaches
  obtain ⟨n, hn⟩ : ∃ n, maps.length = mc + n := ⟨maps.length - mc, by omega⟩
  have hn' : maps.length - mc = n := by omega
  rw [hn']
  induction n generalizing mc symmetries sizes with
  | zero =>
    simp only [List.range'_zero, List.foldl_nil, Prod.mk.injEq]
    constructor
    · apply List.ext_getElem
      · simp [entries, hl1]
      · intro i hi1 hi2
        have := h1 i (by omega)
        rw [List.getD_eq_getElem _ _ hi1] at this
        simp [entries, this]
    · apply List.ext_getElem
      · simp [hl2]
      · intro i hi1 hi2
        have := h2 i (by omega)
        rw [List.getD_eq_getElem _ _ hi1] at this
        rw [this]; simp
  | succ n ih =>
    rw [List.range'_succ, List.foldl_cons]
    apply ih
    · omega
    · simpa using hl1
    · simpa using hl2
    · intro i hi
      by_cases him : i = mc
      · subst him
        rw [List.getD_eq_getElem _ _ (by simp; omega)]; simp
      · rw [List.getD_eq_getElem?_getD, List.getElem?_set_ne (by omega),
          ← List.getD_eq_getElem?_getD]
        exact h1 i (by omega)
    · intro i hi
      by_cases him : i = mc
      · subst him
        rw [getD_set_self (by dsimp only; omega)]
        have hi' : i < ((entries maps it).map Prod.snd).length := by simp [entries]; omega
        have htake : (((entries maps it).map Prod.snd).take (i + 1)).prod =
            (((entries maps it).map Prod.snd).take i).prod * (deref maps it i).2 := by
          rw [List.take_succ_eq_append_getElem hi', List.prod_append]
          simp [entries]
        rw [htake, Nat.mul_comm]
        congr 1
        by_cases h0 : i = 0
        · simp [h0]
        · rw [if_neg h0, h2 (i - 1) (by omega)]
          congr 2
          omega
      · rw [getD_set_ne (by omega)]
        exact h2 i (by omega)
    · omega
    · omega

theorem getLastD_map_range {β : Type} (f : ℕ → β) (n : ℕ) (hn : 0 < n) (d : β) :
    ((List.range n).map f).getLastD d = f (n - 1) := by
  obtain ⟨m, rfl⟩ : ∃ m, n = m + 1 := ⟨n - 1, by omega⟩
  rw [List.range_succ, List.map_append]
  simp

theorem foldl_add_eq_sum [TatSym σ] (l : List ℕ) (f : ℕ → σ) (a : σ) :
    l.foldl (fun acc i => acc + f i) a = a + (l.map f).sum := by
  induction l generalizing a with
  | nil => simp
  | cons x l ih => rw [List.foldl_cons, ih]; simp [add_assoc]

theorem initFold_spec [TatSym σ] (maps : List (List (σ × ℕ))) (h0 : 0 < maps.length)
    (l : List (List ℕ)) (hl : ∀ it ∈ l, it.length = maps.length)
    (prev : List ℕ) (mc : ℕ) (s : InitState σ) (hmc : mc ≤ maps.length)
    (hl1 : s.symmetries.length = maps.length) (hl2 : s.sizes.length = maps.length)
    (h1 : ∀ i, i < mc → s.symmetries.getD i 0 = (deref maps prev i).1)
    (h2 : ∀ i, i < mc → s.sizes.getD i 0 = (((entries maps prev).map Prod.snd).take (i + 1)).prod) :
    (l.foldl (visitStep (initOperate maps)) (prev, mc, s)).2.2.result =
      s.result ++ ((l.map (entries maps)).filter fun c => (c.map Prod.fst).sum = 0).map
        fun c => (c.map Prod.fst, (c.map Prod.snd).prod) := by
  induction l generalizing prev mc s with
  | nil => simp
  | cons it l ih =>
    rw [List.foldl_cons]
    have hcp := commonPrefix_le_right prev it
    have hitl := hl it (by simp)
    have hd : ∀ i, i < commonPrefix prev it → deref maps prev i = deref maps it i := by
      intro i hi
      unfold deref
      rw [getD_commonPrefix hi]
    have hsum : (List.range maps.length).foldl (fun acc i => acc + (deref maps it i).1) (0 : σ) =
        ((entries maps it).map Prod.fst).sum := by
      rw [foldl_add_eq_sum]
      simp [entries, Function.comp_def]
    have htake : ∀ i, i < min mc (commonPrefix prev it) →
        (((entries maps prev).map Prod.snd).take (i + 1)).prod =
        (((entries maps it).map Prod.snd).take (i + 1)).prod := by
      intro i hi
      congr 1
      apply List.ext_getElem
      · simp [entries]
      · intro j hj1 hj2
        have hj : j < i + 1 := by simp at hj1; omega
        simp only [List.getElem_take, List.getElem_map, entries, List.getElem_range]
        rw [hd j (by omega)]
    have hspec := refreshCaches_spec maps it (min mc (commonPrefix prev it)) s.symmetries s.sizes
      (by omega) hl1 hl2
      (fun i hi => by rw [h1 i (by omega), hd i (by omega)])
      (fun i hi => by rw [h2 i (by omega), htake i hi])
    have hlast : ((List.range maps.length).map
        fun i => (((entries maps it).map Prod.snd).take (i + 1)).prod).getLastD 0 =
        ((entries maps it).map Prod.snd).prod := by
      rw [getLastD_map_range _ _ h0, List.take_of_length_le]
      simp [entries]; omega
    by_cases hz : ((entries maps it).map Prod.fst).sum = 0
    · have hop : initOperate maps it (min mc (commonPrefix prev it)) s =
          (maps.length, ⟨s.result ++ [((entries maps it).map Prod.fst,
            ((entries maps it).map Prod.snd).prod)], (entries maps it).map Prod.fst,
            (List.range maps.length).map
              fun i => (((entries maps it).map Prod.snd).take (i + 1)).prod⟩) := by
        unfold initOperate
        simp only [hsum, hz, if_true, hspec, hlast]
      simp only [visitStep, hop]
      rw [ih (fun x hx => hl x (by simp [hx]))]
      · simp [hz]
      · exact le_refl _
      · simp [entries]
      · simp
      · intro i hi
        rw [List.getD_eq_getElem _ _ (by simpa [entries] using hi)]
        simp [entries]
      · intro i hi
        rw [List.getD_eq_getElem _ _ (by simpa using hi)]
        simp
    · have hop : initOperate maps it (min mc (commonPrefix prev it)) s =
          (min mc (commonPrefix prev it), s) := by
        unfold initOperate
        simp only [hsum, hz, if_false]
      simp only [visitStep, hop]
      rw [ih (fun x hx => hl x (by simp [hx]))]
      · simp [hz]
      · omega
      · exact hl1
      · exact hl2
      · intro i hi
        rw [h1 i (by omega), hd i (by omega)]
      · intro i hi
        rw [h2 i (by omega), htake i hi]

theorem choices_eq_nil {β : Type} {ms : List (List β)} (h : [] ∈ ms) : choices ms = [] := by
  induction ms with
  | nil => simp at h
  | cons m ms ih =>
    rcases List.mem_cons.1 h with h | h
    · simp [choices, ← h]
    · simp [choices, ih h]

theorem mem_choices {β : Type} {ms : List (List β)} {c : List β} :
    c ∈ choices ms ↔ List.Forall₂ (fun m x => x ∈ m) ms c := by
  induction ms generalizing c with
  | nil =>
    simp only [choices, List.mem_singleton]
    constructor
    · rintro rfl; exact List.Forall₂.nil
    · intro h; cases h; rfl
  | cons m ms ih =>
    simp only [choices, List.mem_flatMap, List.mem_map]
    constructor
    · rintro ⟨x, hx, c', hc', rfl⟩
      exact List.Forall₂.cons hx (ih.1 hc')
    · intro h
      cases h with
      | cons h1 h2 => exact ⟨_, h1, _, ih.2 h2, rfl⟩

theorem initBlocks_eq [TatSym σ] (edges : List (Edge σ)) :
    initBlocks edges = blockShapes (edges.map Edge.map) := by
  unfold initBlocks blockShapes
  dsimp only
  by_cases h0 : edges = []
  · subst h0; simp [loopEdge, choices]
  · by_cases hne : ∀ m ∈ edges.map Edge.map, m ≠ []
    · rw [loopEdge_eq _ _ _ _ (by simpa using h0) hne]
      have hl : 0 < edges.length := List.length_pos_iff.2 h0
      rw [initFold_spec (edges.map Edge.map) (by simpa using hl) _ _ _ _ _ (by simp) (by simp)
        (by simp) (by simp) (by simp), tuples_entries]
      · simp
      · intro it hit
        have := (mem_tuples.1 hit).length
        simpa using this.symm
    · push Not at hne
      obtain ⟨m, hm, hm0⟩ := hne
      subst hm0
      rw [choices_eq_nil hm]
      unfold loopEdge
      rw [if_neg (by simpa using h0), if_pos]
      · rfl
      · rw [List.any_eq_true]
        exact ⟨[], hm, rfl⟩

/-! ## order of the blocks -/

theorem choices_sorted [TatSym σ] {maps : List (List (σ × ℕ))} (h : ∀ m ∈ maps, OMap.Sorted m) :
    ((choices maps).map (List.map Prod.fst)).Pairwise (· < ·) := by
  induction maps with
  | nil => simp [choices]
  | cons m ms ih =>
    rw [choices, List.map_flatMap]
    have hm := h m (by simp)
    have ih' := ih (fun m' hm' => h m' (by simp [hm']))
    clear h ih
    induction m with
    | nil => simp
    | cons x m ihm =>
      unfold OMap.Sorted at hm
      rw [List.map_cons, List.pairwise_cons] at hm
      rw [List.flatMap_cons, List.pairwise_append]
      refine ⟨?_, ihm hm.2, ?_⟩
      · rw [List.map_map, List.pairwise_map]
        rw [List.pairwise_map] at ih'
        refine List.Pairwise.imp ?_ ih'
        intro a b hab
        exact List.Lex.cons hab
      · intro a ha b hb
        simp only [List.map_map, List.mem_map, Function.comp, List.mem_flatMap] at ha hb
        obtain ⟨a', _, rfl⟩ := ha
        obtain ⟨y, hy, b', _, rfl⟩ := hb
        simp only [List.map_cons]
        exact List.Lex.rel (hm.1 y.1 (List.mem_map_of_mem hy))

theorem blockShapes_sorted [TatSym σ] {maps : List (List (σ × ℕ))}
    (h : ∀ m ∈ maps, OMap.Sorted m) : OMap.Sorted (blockShapes maps) := by
  unfold OMap.Sorted blockShapes
  rw [List.map_map]
  have := choices_sorted h
  rw [List.pairwise_map] at this ⊢
  exact (List.Pairwise.filter _ this).imp (fun hab => hab)

theorem mem_blockShapes [TatSym σ] {maps : List (List (σ × ℕ))} {b : List σ × ℕ} :
    b ∈ blockShapes maps ↔ ∃ c, List.Forall₂ (fun m x => x ∈ m) maps c ∧
      (c.map Prod.fst).sum = 0 ∧ b = (c.map Prod.fst, (c.map Prod.snd).prod) := by
  unfold blockShapes
  simp only [List.mem_map, List.mem_filter, decide_eq_true_eq, mem_choices]
  constructor
  · rintro ⟨c, ⟨h1, h2⟩, rfl⟩; exact ⟨c, h1, h2, rfl⟩
  · rintro ⟨c, h1, h2, rfl⟩; exact ⟨c, ⟨h1, h2⟩, rfl⟩

end TAT
