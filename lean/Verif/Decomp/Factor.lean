import Verif.Decomp.Merge

/-!
# Factorising every block of the matrix
-/

set_option linter.unusedSectionVars false

namespace TAT

section maps
variable {κ β γ : Type} [LinearOrder κ]

theorem foldl_set_find (l : List β) (f : β → κ) (v : κ → γ) (m : List (κ × γ)) (s : κ) :
    OMap.find? (l.foldl (fun m b => OMap.set m (f b) (v (f b))) m) s =
      if s ∈ l.map f then some (v s) else OMap.find? m s := by
  induction l generalizing m with
  | nil => simp
  | cons b l ih =>
    rw [List.foldl_cons, ih, OMap.find?_set]
    by_cases h1 : s ∈ l.map f
    · rw [if_pos h1, if_pos (by rw [List.map_cons]; exact List.mem_cons_of_mem _ h1)]
    · rw [if_neg h1]
      by_cases h2 : s = f b
      · rw [if_pos h2, if_pos (by rw [List.map_cons, h2]; exact List.mem_cons_self), h2]
      · rw [if_neg h2, if_neg (by
          rw [List.map_cons, List.mem_cons]; rintro (h | h)
          · exact h2 h
          · exact h1 h)]

theorem foldl_set_sorted' (l : List β) (f : β → κ) (v : β → γ) {m : List (κ × γ)}
    (h : OMap.Sorted m) : OMap.Sorted (l.foldl (fun m b => OMap.set m (f b) (v b)) m) := by
  induction l generalizing m with
  | nil => exact h
  | cons b l ih => exact ih (h.set _ _)

theorem set_of_find {m : List (κ × γ)} (h : OMap.Sorted m) {k : κ} {d : γ}
    (hd : OMap.find? m k = some d) : OMap.set m k d = m := by
  apply OMap.ext (h.set _ _) h
  intro s
  rw [OMap.find?_set]
  split
  · rename_i hk
    rw [hk, hd]
  · rfl

end maps

variable {ν σ α γ : Type} [LinearOrder ν] [TatSym σ]

/-- What is asked of the factorisation of one matrix: for an `m`×`n` matrix it fills an `m`×`k` and a
`k`×`n` matrix, where `k` is the smaller one of `m` and `n`, such that `Q` holds. -/
def KernelOk (kernel : Kernel α γ) (Q : ℕ → ℕ → List α → List α → γ → List α → Prop) : Prop :=
  ∀ m n : ℕ, ∀ data d1 d2 : List α, 0 < m → 0 < n → data.length = m * n →
    d1.length = m * min m n → d2.length = min m n * n →
    ∃ r, kernel m n data d1 d2 = .ok r ∧ r.1.length = m * min m n ∧ r.2.2.length = min m n * n ∧
      Q m n data r.1 r.2.1 r.2.2

/-- The dimension of the common edge: `s` is the symmetry of the first edge. -/
def rankAt (F C : Edge σ) (s : σ) : ℕ := min (dimOf F s) (dimOf C (-s))

/-- The two factors of the matrix `M`. -/
structure Factors (Q : ℕ → ℕ → List α → List α → γ → List α → Prop) (none : γ) (x1 x2 c1 c2 : ν)
    (F C E1 E2 : Edge σ) (M T1 T2 : Tensor ν σ α) (g : List σ → γ) : Prop where
  wf1 : WF T1
  wf2 : WF T2
  names1 : T1.names = [x1, c1]
  names2 : T2.names = [c2, x2]
  edges1 : T1.core.edges = [F, E1]
  edges2 : T2.core.edges = [E2, C]
  arrow1 : E1.arrow = false
  arrow2 : E2.arrow = false
  find1 : ∀ s, OMap.find? E1.map s =
    if s ∈ OMap.keys C.map then some (rankAt F C (-s)) else Option.none
  find2 : ∀ s, OMap.find? E2.map s =
    if s ∈ OMap.keys F.map then some (rankAt F C s) else Option.none
  block : ∀ s ∈ OMap.keys F.map, ∃ d d1 d2, OMap.find? M.core.blocks [s, -s] = some d ∧
    OMap.find? T1.core.blocks [s, -s] = some d1 ∧ OMap.find? T2.core.blocks [s, -s] = some d2 ∧
    (dimOf F s * dimOf C (-s) ≠ 0 → Q (dimOf F s) (dimOf C (-s)) d d1 (g [s, -s]) d2) ∧
    (dimOf F s * dimOf C (-s) = 0 → g [s, -s] = none)

section common
variable {M : Tensor ν σ α} {F C : Edge σ}

theorem two_key_iff (h : WF M) (he : M.core.edges = [F, C]) (k : List σ) :
    k ∈ OMap.keys M.core.blocks ↔ ∃ s, k = [s, -s] ∧ s ∈ OMap.keys F.map := by
  rw [h.mem_keys, he]
  constructor
  · rintro ⟨hk, h0⟩
    match k, hk with
    | [s, s'], .cons a (.cons b .nil) =>
      have : s' = -s := by
        simp only [List.sum_cons, List.sum_nil, add_zero] at h0
        exact (neg_eq_of_add_eq_zero_right h0).symm
      exact ⟨s, by rw [this], a⟩
  · rintro ⟨s, rfl, hs⟩
    refine ⟨.cons hs (.cons (two_keys h (r := true) he hs) .nil), by simp⟩

theorem common_spec (h : WF M) (he : M.core.edges = [F, C]) :
    ∃ m1 m2, commonMaps F C M.core.blocks = .ok (m1, m2) ∧ OMap.Sorted m1 ∧ OMap.Sorted m2 ∧
      (∀ s, OMap.find? m1 s = if s ∈ OMap.keys C.map then some (rankAt F C (-s)) else none) ∧
      (∀ s, OMap.find? m2 s = if s ∈ OMap.keys F.map then some (rankAt F C s) else none) := by
  have hstep : ∀ b ∈ M.core.blocks, ∀ acc, commonStep F C acc b =
      .ok (OMap.set acc.1 (b.1.getD 1 0) (rankAt F C (-(b.1.getD 1 0))),
        OMap.set acc.2 (b.1.getD 0 0) (rankAt F C (b.1.getD 0 0))) := by
    intro b hb acc
    obtain ⟨s, hs, hsF⟩ := (two_key_iff h he b.1).1 (List.mem_map_of_mem hb)
    have hsC := two_keys h (r := true) he hsF
    obtain ⟨v, hv⟩ := Option.isSome_iff_exists.1 (OMap.find?_isSome.2 hsF)
    obtain ⟨v', hv'⟩ := Option.isSome_iff_exists.1 (OMap.find?_isSome.2 hsC)
    have e1 : dimOf F s = v := by rw [dimOf, hv]; rfl
    have e2 : dimOf C (-s) = v' := by rw [dimOf, hv']; rfl
    unfold commonStep
    rw [hs]
    simp only [hv, hv', List.getD_cons_succ, List.getD_cons_zero, rankAt, neg_neg, e1, e2]
    have : (if v > v' then v' else v) = min v v' := by
      rcases Nat.lt_or_ge v' v with hlt | hge
      · rw [if_pos hlt, Nat.min_eq_right hlt.le]
      · rw [if_neg (Nat.not_lt.2 hge), Nat.min_eq_left hge]
    rw [this]
  have hfold : ∀ (l : List (List σ × List α)) (acc), (∀ b ∈ l, b ∈ M.core.blocks) →
      l.foldlM (commonStep F C) acc = .ok
        (l.foldl (fun m b => OMap.set m (b.1.getD 1 0) (rankAt F C (-(b.1.getD 1 0)))) acc.1,
         l.foldl (fun m b => OMap.set m (b.1.getD 0 0) (rankAt F C (b.1.getD 0 0))) acc.2) := by
    intro l
    induction l with
    | nil => intro acc _; rfl
    | cons b l ih =>
      intro acc hl
      rw [List.foldlM_cons, hstep b (hl b List.mem_cons_self)]
      exact ih _ fun c hc => hl c (List.mem_cons_of_mem _ hc)
  refine ⟨_, _, hfold M.core.blocks ([], []) (fun _ hb => hb),
    foldl_set_sorted' _ _ _ List.Pairwise.nil, foldl_set_sorted' _ _ _ List.Pairwise.nil,
    fun s => ?_, fun s => ?_⟩
  · rw [foldl_set_find M.core.blocks (fun b : List σ × List α => b.1.getD 1 0)
      (fun s => rankAt F C (-s)) [] s]
    have : s ∈ M.core.blocks.map (fun b => b.1.getD 1 0) ↔ s ∈ OMap.keys C.map := by
      constructor
      · intro hm
        obtain ⟨b, hb, rfl⟩ := List.mem_map.1 hm
        obtain ⟨s, hs, hsF⟩ := (two_key_iff h he b.1).1 (List.mem_map_of_mem hb)
        rw [hs]
        exact two_keys h (r := true) he hsF
      · intro hm
        have := (two_key_iff h he [-s, -(-s)]).2 ⟨-s, rfl, two_keys h (r := false) he hm⟩
        obtain ⟨b, hb, hb'⟩ := List.mem_map.1 this
        exact List.mem_map.2 ⟨b, hb, by rw [hb']; simp⟩
    simp only [this]; rfl
  · rw [foldl_set_find M.core.blocks (fun b : List σ × List α => b.1.getD 0 0)
      (fun s => rankAt F C s) [] s]
    have : s ∈ M.core.blocks.map (fun b => b.1.getD 0 0) ↔ s ∈ OMap.keys F.map := by
      constructor
      · intro hm
        obtain ⟨b, hb, rfl⟩ := List.mem_map.1 hm
        obtain ⟨s, hs, hsF⟩ := (two_key_iff h he b.1).1 (List.mem_map_of_mem hb)
        rw [hs]
        exact hsF
      · intro hm
        have := (two_key_iff h he [s, -s]).2 ⟨s, rfl, hm⟩
        obtain ⟨b, hb, hb'⟩ := List.mem_map.1 this
        exact List.mem_map.2 ⟨b, hb, by rw [hb']; simp⟩
    simp only [this]; rfl

end common

theorem factor_fold {l : List (List σ × List α)} {kernel : Kernel α γ} {none : γ} {e0 e1 : Edge σ}
    {A0 B0 : List (List σ × List α)} {v1 v2 : List σ → List α} {g : List σ → γ}
    (hn : (l.map Prod.fst).Nodup)
    (hstep : ∀ b ∈ l, ∀ A B mids, OMap.Sorted A → OMap.Sorted B →
      OMap.find? A b.1 = OMap.find? A0 b.1 → OMap.find? B b.1 = OMap.find? B0 b.1 →
      factorStep kernel none e0 e1 (A, B, mids) b =
        .ok (OMap.set A b.1 (v1 b.1), OMap.set B b.1 (v2 b.1), mids ++ [(b.1, g b.1)]))
    {A B : List (List σ × List α)} (mids : List (List σ × γ)) (hA : OMap.Sorted A)
    (hB : OMap.Sorted B)
    (hA0 : ∀ b ∈ l, OMap.find? A b.1 = OMap.find? A0 b.1)
    (hB0 : ∀ b ∈ l, OMap.find? B b.1 = OMap.find? B0 b.1) :
    l.foldlM (factorStep kernel none e0 e1) (A, B, mids) =
      .ok (l.foldl (fun m b => OMap.set m b.1 (v1 b.1)) A,
        l.foldl (fun m b => OMap.set m b.1 (v2 b.1)) B, mids ++ l.map fun b => (b.1, g b.1)) := by
  induction l generalizing A B mids with
  | nil => simp
  | cons b l ih =>
    rw [List.map_cons, List.nodup_cons] at hn
    have hne : ∀ c ∈ l, b.1 ≠ c.1 := fun c hc hbc => hn.1 (hbc ▸ List.mem_map_of_mem hc)
    rw [List.foldlM_cons, hstep b List.mem_cons_self A B mids hA hB (hA0 b List.mem_cons_self)
      (hB0 b List.mem_cons_self)]
    refine (ih hn.2 (fun c hc => hstep c (List.mem_cons_of_mem _ hc)) (mids ++ [(b.1, g b.1)])
      (hA.set _ _) (hB.set _ _) (fun c hc => ?_) (fun c hc => ?_)).trans ?_
    · rw [OMap.find?_set, if_neg (Ne.symm (hne c hc))]
      exact hA0 c (List.mem_cons_of_mem _ hc)
    · rw [OMap.find?_set, if_neg (Ne.symm (hne c hc))]
      exact hB0 c (List.mem_cons_of_mem _ hc)
    · rw [List.foldl_cons, List.foldl_cons, List.map_cons, List.append_assoc]
      rfl

/-- A fresh matrix with given edges, when no symmetry is dropped. -/
theorem fresh_two (junk : List σ → ℕ → α) {x y : ν} (hxy : x ≠ y) {A B : Edge σ}
    (hA : OMap.Sorted A.map) (hB : OMap.Sorted B.map)
    (hk : ∀ s, s ∈ OMap.keys A.map ↔ -s ∈ OMap.keys B.map) :
    ∃ r, mkTensor junk [x, y] [A, B] = .ok r ∧ WF r ∧ r.names = [x, y] ∧ r.core.edges = [A, B] := by
  have hn : [x, y].Nodup := by simp [hxy]
  have hm : [x, y].map (fun n => if n = x then A else B) = [A, B] := by simp [Ne.symm hxy]
  obtain ⟨r, h1, h2⟩ := mkTensor_fresh junk hn (fun n => if n = x then A else B) (by
    intro n _; split <;> assumption)
  rw [hm] at h1
  have hp : prunedEdges ([x, y].map fun n => if n = x then A else B) =
      [x, y].map fun n => if n = x then A else B := by
    rw [prunedEdges_eq_iff hn]
    have key : ∀ s ∈ OMap.keys A.map, ∀ q : ν → σ × ℕ, q x = (s, 0) → q y = (-s, 0) →
        KeyOk (fun n => (if n = x then A else B).map) [x, y] q := by
      intro s hs q q1 q2
      refine ⟨fun n hn => ?_, by simp [keyOf, q1, q2]⟩
      beta_reduce
      rcases List.mem_cons.1 hn with rfl | hn
      · rw [if_pos rfl, q1]; exact hs
      · obtain rfl : n = y := by simpa using hn
        rw [if_neg (Ne.symm hxy), q2]
        exact (hk s).1 hs
    intro n hn s hs
    rcases List.mem_cons.1 hn with rfl | hn
    · rw [if_pos rfl] at hs
      exact ⟨fun m => if m = n then (s, 0) else (-s, 0), key s hs _ (by simp)
        (by simp [Ne.symm hxy]), by simp⟩
    · obtain rfl : n = y := by simpa using hn
      rw [if_neg (Ne.symm hxy)] at hs
      refine ⟨fun m => if m = x then (-s, 0) else (s, 0), key (-s) ((hk _).2 (by rw [neg_neg]; exact hs))
        _ (by simp) (by simp [Ne.symm hxy]), by simp [Ne.symm hxy]⟩
  refine ⟨r, h1, h2.wf, h2.namesEq, ?_⟩
  rw [h2.edges, hp, hm]

theorem factorise_spec [Zero α] {kernel : Kernel α γ} (none : γ)
    {Q : ℕ → ℕ → List α → List α → γ → List α → Prop} (hQ : KernelOk kernel Q)
    (junk1 junk2 : List σ → ℕ → α) {x1 x2 c1 c2 : ν} (h1 : x1 ≠ c1) (h2 : c2 ≠ x2)
    {M : Tensor ν σ α} {F C : Edge σ} (h : WF M) (he : M.core.edges = [F, C]) :
    ∃ T1 T2 E1 E2 g, factorise kernel none junk1 junk2 x1 x2 c1 c2 M =
        .ok (T1, T2, M.core.blocks.map fun b => (b.1, g b.1)) ∧
      Factors Q none x1 x2 c1 c2 F C E1 E2 M T1 T2 g := by
  obtain ⟨m1, m2, hc, hs1, hs2, hf1, hf2⟩ := common_spec h he
  have hsF : OMap.Sorted F.map := h.sorted _ (by rw [he]; simp)
  have hsC : OMap.Sorted C.map := h.sorted _ (by rw [he]; simp)
  have hFC : ∀ s, s ∈ OMap.keys F.map ↔ -s ∈ OMap.keys C.map := fun s =>
    ⟨two_keys h (r := true) he, fun hs => by
      have := two_keys h (r := false) he hs
      rwa [neg_neg] at this⟩
  have hk1 : ∀ s, s ∈ OMap.keys m1 ↔ s ∈ OMap.keys C.map := by
    intro s
    rw [← OMap.find?_isSome, hf1]
    by_cases hs : s ∈ OMap.keys C.map <;> simp [hs]
  have hk2 : ∀ s, s ∈ OMap.keys m2 ↔ s ∈ OMap.keys F.map := by
    intro s
    rw [← OMap.find?_isSome, hf2]
    by_cases hs : s ∈ OMap.keys F.map <;> simp [hs]
  obtain ⟨t1, ht1, hw1, hn1, he1⟩ := fresh_two junk1 h1 hsF (B := ⟨false, m1⟩) hs1 (fun s => by
    rw [hFC]; exact (hk1 _).symm)
  obtain ⟨t2, ht2, hw2, hn2, he2⟩ := fresh_two junk2 h2 (A := ⟨false, m2⟩) hs2 hsC (fun s => by
    rw [← hFC]; exact hk2 _)
  have hd1 : ∀ s ∈ OMap.keys F.map, dimOf (⟨false, m1⟩ : Edge σ) (-s) = rankAt F C s := by
    intro s hs
    rw [dimOf]
    change (OMap.find? m1 (-s)).getD 0 = _
    rw [hf1, if_pos ((hFC s).1 hs), neg_neg]; rfl
  have hd2 : ∀ s ∈ OMap.keys F.map, dimOf (⟨false, m2⟩ : Edge σ) s = rankAt F C s := by
    intro s hs
    rw [dimOf]
    change (OMap.find? m2 s).getD 0 = _
    rw [hf2, if_pos hs]; rfl
  -- the blocks
  have hb1 : ∀ s ∈ OMap.keys F.map, ∃ d, OMap.find? t1.core.blocks [s, -s] = some d ∧
      d.length = dimOf F s * rankAt F C s := by
    intro s hs
    obtain ⟨d, d1, d2, -⟩ := two_block hw1 (r := true) he1 hs ((hk1 _).2 ((hFC s).1 hs))
      (add_neg_cancel s)
    exact ⟨d, d1, by rw [d2, hd1 s hs]⟩
  have hb2 : ∀ s ∈ OMap.keys F.map, ∃ d, OMap.find? t2.core.blocks [s, -s] = some d ∧
      d.length = rankAt F C s * dimOf C (-s) := by
    intro s hs
    obtain ⟨d, d1, d2, -⟩ := two_block hw2 (r := true) he2 ((hk2 _).2 hs) ((hFC s).1 hs)
      (add_neg_cancel s)
    exact ⟨d, d1, by rw [d2, hd2 s hs]⟩
  have hbM : ∀ s ∈ OMap.keys F.map, ∃ d, OMap.find? M.core.blocks [s, -s] = some d ∧
      d.length = dimOf F s * dimOf C (-s) := by
    intro s hs
    obtain ⟨d, d1, d2, -⟩ := two_block h (r := true) he hs ((hFC s).1 hs) (add_neg_cancel s)
    exact ⟨d, d1, d2⟩
  -- one block
  have hone : ∀ k : List σ, ∃ (v : List α × γ × List α), ∀ s ∈ OMap.keys F.map, k = [s, -s] →
      v.1.length = dimOf F s * rankAt F C s ∧ v.2.2.length = rankAt F C s * dimOf C (-s) ∧
      ∀ d, OMap.find? M.core.blocks k = some d →
      (∀ A B mids, OMap.Sorted A → OMap.Sorted B →
        OMap.find? A k = OMap.find? t1.core.blocks k → OMap.find? B k = OMap.find? t2.core.blocks k →
        factorStep kernel none F C (A, B, mids) (k, d) =
          .ok (OMap.set A k v.1, OMap.set B k v.2.2, mids ++ [(k, v.2.1)])) ∧
      (dimOf F s * dimOf C (-s) ≠ 0 → Q (dimOf F s) (dimOf C (-s)) d v.1 v.2.1 v.2.2) ∧
      (dimOf F s * dimOf C (-s) = 0 → v.2.1 = none) := by
    intro k
    by_cases hk : ∃ s ∈ OMap.keys F.map, k = [s, -s]
    · obtain ⟨s, hs, rfl⟩ := hk
      obtain ⟨d1, hd1', hl1⟩ := hb1 s hs
      obtain ⟨d2, hd2', hl2⟩ := hb2 s hs
      obtain ⟨d, hdM, hlM⟩ := hbM s hs
      obtain ⟨u, hu⟩ := Option.isSome_iff_exists.1 (OMap.find?_isSome.2 hs)
      obtain ⟨u', hu'⟩ := Option.isSome_iff_exists.1 (OMap.find?_isSome.2 ((hFC s).1 hs))
      have eu : dimOf F s = u := by rw [dimOf, hu]; rfl
      have eu' : dimOf C (-s) = u' := by rw [dimOf, hu']; rfl
      by_cases hmn : u * u' = 0
      · refine ⟨(d1, none, d2), fun s' _ hs'' => ?_⟩
        obtain rfl : s = s' := by simpa using hs''
        refine ⟨hl1, hl2, fun d' hd' => ⟨fun A B mids hA hB fA fB => ?_, fun hc => ?_, fun _ => rfl⟩⟩
        · unfold factorStep
          rw [hd1'] at fA
          rw [hd2'] at fB
          simp only [fA, fB, hu, hu', hmn, ne_eq, not_true_eq_false, if_false,
            set_of_find hA fA, set_of_find hB fB]
        · rw [eu, eu'] at hc
          exact absurd hmn hc
      · have p1 : 0 < u := Nat.pos_of_ne_zero fun hz => hmn (by rw [hz, Nat.zero_mul])
        have p2 : 0 < u' := Nat.pos_of_ne_zero fun hz => hmn (by rw [hz, Nat.mul_zero])
        unfold rankAt at hl1 hl2
        rw [eu, eu'] at hl1 hl2 hlM
        obtain ⟨r, r1, r2, r3, r4⟩ := hQ u u' d d1 d2 p1 p2 hlM hl1 hl2
        refine ⟨r, fun s' _ hs'' => ?_⟩
        obtain rfl : s = s' := by simpa using hs''
        unfold rankAt
        rw [eu, eu']
        refine ⟨r2, r3, fun d' hd' => ?_⟩
        obtain rfl : d = d' := Option.some.inj (hdM.symm.trans hd')
        refine ⟨fun A B mids hA hB fA fB => ?_, fun _ => r4, fun hc => absurd hc hmn⟩
        unfold factorStep
        rw [hd1'] at fA
        rw [hd2'] at fB
        simp only [fA, fB, hu, hu', hmn, ne_eq, not_false_eq_true, if_true, r1]
        rfl
    · exact ⟨([], none, []), fun s hs hk' => absurd ⟨s, hs, hk'⟩ hk⟩
  choose v hv using hone
  have hnd : (M.core.blocks.map Prod.fst).Nodup := h.blocksSorted.nodup
  have hfold := factor_fold (l := M.core.blocks) (kernel := kernel) (none := none) (e0 := F) (e1 := C)
    (A0 := t1.core.blocks) (B0 := t2.core.blocks) (v1 := fun k => (v k).1) (v2 := fun k => (v k).2.2)
    (g := fun k => (v k).2.1) hnd (fun b hb A B mids hA hB fA fB => by
      obtain ⟨s, hs, hsF⟩ := (two_key_iff h he b.1).1 (List.mem_map_of_mem hb)
      have := ((hv b.1 s hsF hs).2.2 b.2 (OMap.find?_of_mem hnd hb)).1 A B mids hA hB fA fB
      exact this) [] hw1.blocksSorted hw2.blocksSorted (fun _ _ => rfl) (fun _ _ => rfl)
  -- the factors
  have hkeys1 : ∀ k, k ∈ OMap.keys t1.core.blocks ↔ k ∈ M.core.blocks.map Prod.fst := by
    intro k
    rw [two_key_iff hw1 he1]
    exact (two_key_iff h he k).symm
  have hkeys2 : ∀ k, k ∈ OMap.keys t2.core.blocks ↔ k ∈ M.core.blocks.map Prod.fst := by
    intro k
    rw [two_key_iff hw2 he2]
    refine Iff.trans ?_ (two_key_iff h he k).symm
    exact ⟨fun ⟨s, a, b⟩ => ⟨s, a, (hk2 s).1 b⟩, fun ⟨s, a, b⟩ => ⟨s, a, (hk2 s).2 b⟩⟩
  have hblocks : ∀ (t : Tensor ν σ α) (w : List σ → List α), OMap.Sorted t.core.blocks →
      (∀ k, k ∈ OMap.keys t.core.blocks ↔ k ∈ M.core.blocks.map Prod.fst) →
      M.core.blocks.foldl (fun m b => OMap.set m b.1 (w b.1)) t.core.blocks =
        t.core.blocks.map fun c => (c.1, w c.1) := by
    intro t w hst hkt
    apply OMap.ext (foldl_set_sorted' _ _ _ hst)
    · unfold OMap.Sorted at hst ⊢; rw [List.map_map]; exact hst
    · intro k
      rw [foldl_set_find M.core.blocks Prod.fst w, OMap.find?_map_val t.core.blocks fun k _ => w k]
      by_cases hk : k ∈ M.core.blocks.map Prod.fst
      · rw [if_pos hk]
        obtain ⟨d, hd⟩ := Option.isSome_iff_exists.1 (OMap.find?_isSome.2 ((hkt k).2 hk))
        rw [hd]; rfl
      · rw [if_neg hk]
        have : OMap.find? t.core.blocks k = Option.none := by
          rw [OMap.find?_eq_none]; exact fun hc => hk ((hkt k).1 hc)
        rw [this]; rfl
  rw [hblocks t1 (fun k => (v k).1) hw1.blocksSorted hkeys1,
    hblocks t2 (fun k => (v k).2.2) hw2.blocksSorted hkeys2, List.nil_append] at hfold
  have hlen1 : ∀ c ∈ t1.core.blocks, ((v c.1).1).length = c.2.length := by
    intro c hc
    have hkc := OMap.find?_of_mem hw1.blocksSorted.nodup hc
    obtain ⟨s, hs, hsF⟩ := (two_key_iff hw1 he1 c.1).1 (List.mem_map_of_mem hc)
    obtain ⟨d, d1, d2⟩ := hb1 s hsF
    rw [hs, d1] at hkc
    obtain rfl := Option.some.inj hkc
    rw [d2, (hv c.1 s hsF hs).1]
  have hlen2 : ∀ c ∈ t2.core.blocks, ((v c.1).2.2).length = c.2.length := by
    intro c hc
    have hkc := OMap.find?_of_mem hw2.blocksSorted.nodup hc
    obtain ⟨s, hs, hsF⟩ := (two_key_iff hw2 he2 c.1).1 (List.mem_map_of_mem hc)
    have hsF' := (hk2 s).1 hsF
    obtain ⟨d, d1, d2⟩ := hb2 s hsF'
    rw [hs, d1] at hkc
    obtain rfl := Option.some.inj hkc
    rw [d2, (hv c.1 s hsF' hs).2.1]
  refine ⟨withBlocks t1 fun k _ => (v k).1, withBlocks t2 fun k _ => (v k).2.2, ⟨false, m1⟩,
    ⟨false, m2⟩, fun k => (v k).2.1, ?_, ⟨withBlocks_wf hw1 hlen1, withBlocks_wf hw2 hlen2, hn1, hn2,
      he1, he2, rfl, rfl, hf1, hf2, fun s hs => ?_⟩⟩
  · unfold factorise
    rw [he]
    simp only [hc, Outcome.bind]
    rw [ht1]
    simp only [Outcome.bind]
    rw [ht2]
    simp only [Outcome.bind, he1, he2, List.getD_cons_zero, List.getD_cons_succ]
    rw [hfold]
    unfold withBlocks
    rw [he1, he2]
  · obtain ⟨d, hdM, hlM⟩ := hbM s hs
    obtain ⟨d1, hd1', hl1⟩ := hb1 s hs
    obtain ⟨d2, hd2', hl2⟩ := hb2 s hs
    refine ⟨d, (v [s, -s]).1, (v [s, -s]).2.2, hdM, ?_, ?_, ?_⟩
    · rw [find?_withBlocks, hd1']; rfl
    · rw [find?_withBlocks, hd2']; rfl
    · exact ((hv _ s hs rfl).2.2 d hdM).2

end TAT
