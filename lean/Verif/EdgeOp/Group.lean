import Verif.EdgeOp.Spec

/-!
# The offset tables of split and merge groups
-/

namespace TAT

variable {ν σ α : Type}

/-! ## prefix sums -/

section prefixSums
variable {κ : Type} [DecidableEq κ]

theorem prefixSize_cons_self (k : κ) (n : ℕ) (l : List (κ × ℕ)) : prefixSize ((k, n) :: l) k = 0 := by
  simp [prefixSize]

theorem prefixSize_cons_ne {k k' : κ} (h : k' ≠ k) (n : ℕ) (l : List (κ × ℕ)) :
    prefixSize ((k', n) :: l) k = n + prefixSize l k := by
  simp [prefixSize, h]

theorem prefixSize_append {k : κ} (l l' : List (κ × ℕ)) :
    prefixSize (l ++ l') k =
      if k ∈ l.map Prod.fst then prefixSize l k else (l.map Prod.snd).sum + prefixSize l' k := by
  induction l with
  | nil => simp
  | cons x l ih =>
    obtain ⟨k', n⟩ := x
    by_cases h : k' = k
    · subst h
      simp [prefixSize_cons_self]
    · rw [List.cons_append, prefixSize_cons_ne h, prefixSize_cons_ne h, ih]
      have : (k ∈ ((k', n) :: l).map Prod.fst) ↔ k ∈ l.map Prod.fst := by
        simp [Ne.symm h]
      simp only [this]
      split
      · rfl
      · simp; omega

/-- An entry lies inside the whole. -/
theorem prefixSize_add_le {l : List (κ × ℕ)} {k : κ} {n : ℕ} (hn : (l.map Prod.fst).Nodup)
    (h : (k, n) ∈ l) : prefixSize l k + n ≤ (l.map Prod.snd).sum := by
  induction l with
  | nil => simp at h
  | cons x l ih =>
    obtain ⟨k', n'⟩ := x
    rw [List.map_cons, List.nodup_cons] at hn
    rcases List.mem_cons.1 h with h | h
    · obtain ⟨rfl, rfl⟩ := Prod.mk.inj h
      rw [prefixSize_cons_self]; simp
    · have hne : k' ≠ k := by
        rintro rfl
        exact hn.1 (List.mem_map.2 ⟨_, h, rfl⟩)
      rw [prefixSize_cons_ne hne]
      have := ih hn.2 h
      simp; omega

/-- Two entries occupy disjoint intervals. -/
theorem prefixSize_disjoint {l : List (κ × ℕ)} {k k' : κ} {n n' i i' : ℕ}
    (hn : (l.map Prod.fst).Nodup) (h : (k, n) ∈ l) (h' : (k', n') ∈ l) (hi : i < n) (hi' : i' < n')
    (he : prefixSize l k + i = prefixSize l k' + i') : k = k' ∧ i = i' := by
  induction l with
  | nil => simp at h
  | cons x l ih =>
    obtain ⟨k0, n0⟩ := x
    rw [List.map_cons, List.nodup_cons] at hn
    have key : ∀ {a b}, (a, b) ∈ l → k0 ≠ a := by
      rintro a b h rfl
      exact hn.1 (List.mem_map.2 ⟨_, h, rfl⟩)
    rcases List.mem_cons.1 h with g | g <;> rcases List.mem_cons.1 h' with g' | g'
    · obtain ⟨rfl, rfl⟩ := Prod.mk.inj g
      obtain ⟨rfl, rfl⟩ := Prod.mk.inj g'
      exact ⟨rfl, by omega⟩
    · obtain ⟨rfl, rfl⟩ := Prod.mk.inj g
      rw [prefixSize_cons_self, prefixSize_cons_ne (key g')] at he
      omega
    · obtain ⟨rfl, rfl⟩ := Prod.mk.inj g'
      rw [prefixSize_cons_self, prefixSize_cons_ne (key g)] at he
      omega
    · rw [prefixSize_cons_ne (key g'), prefixSize_cons_ne (key g)] at he
      exact ih hn.2 g g' (by omega)

/-- The intervals cover everything. -/
theorem prefixSize_cover {l : List (κ × ℕ)} (hn : (l.map Prod.fst).Nodup) {i : ℕ}
    (hi : i < (l.map Prod.snd).sum) :
    ∃ k n j, (k, n) ∈ l ∧ j < n ∧ i = prefixSize l k + j := by
  induction l generalizing i with
  | nil => simp at hi
  | cons x l ih =>
    obtain ⟨k0, n0⟩ := x
    rw [List.map_cons, List.nodup_cons] at hn
    by_cases h0 : i < n0
    · exact ⟨k0, n0, i, by simp, h0, by rw [prefixSize_cons_self]; omega⟩
    · obtain ⟨k, n, j, h1, h2, h3⟩ := ih hn.2 (i := i - n0) (by simp at hi; omega)
      refine ⟨k, n, j, List.mem_cons_of_mem _ h1, h2, ?_⟩
      rw [prefixSize_cons_ne]
      · omega
      · rintro rfl
        exact hn.1 (List.mem_map.2 ⟨_, h1, rfl⟩)

end prefixSums

/-! ## the simple form of the two loops -/

section loops
variable [TatSym σ]

/-- What one combination does to offset table and bank in the merge loop. -/
def mergeRec (st : List (List σ × (σ × ℕ)) × List (σ × ℕ)) (c : List σ × ℕ) :
    List (List σ × (σ × ℕ)) × List (σ × ℕ) :=
  (OMap.set st.1 c.1 (c.1.sum, (OMap.find? st.2 c.1.sum).getD 0),
   OMap.set st.2 c.1.sum ((OMap.find? st.2 c.1.sum).getD 0 + c.2))

/-- What one combination does to offset table and bank in the split loop. -/
def splitRec (st : List (List σ × (σ × ℕ)) × List (σ × ℕ)) (c : List σ × ℕ) :
    List (List σ × (σ × ℕ)) × List (σ × ℕ) :=
  match OMap.find? st.2 c.1.sum with
  | some o => (OMap.set st.1 c.1 (c.1.sum, o), OMap.set st.2 c.1.sum (o + c.2))
  | none => st

/-- The caches hold the data of combination `it`. -/
structure CacheOk (maps : List (List (σ × ℕ))) (it : List ℕ) (mc : ℕ) (s : GroupState σ) : Prop where
  lenS : s.accS.length = maps.length
  lenD : s.accD.length = maps.length
  lenC : s.cur.length = maps.length
  cur : ∀ i, i < mc → s.cur.getD i 0 = (deref maps it i).1
  accS : ∀ i, i < mc → s.accS.getD i 0 = (((entries maps it).map Prod.fst).take (i + 1)).sum
  accD : ∀ i, i < mc → s.accD.getD i 0 = (((entries maps it).map Prod.snd).take (i + 1)).prod

theorem refreshGroup_spec (maps : List (List (σ × ℕ))) (it : List ℕ) (mc : ℕ) (s : GroupState σ)
    (hmc : mc ≤ maps.length) (h : CacheOk maps it mc s) :
    CacheOk maps it maps.length (refreshGroup maps it mc s) ∧
      (refreshGroup maps it mc s).offset = s.offset ∧
      (refreshGroup maps it mc s).bank = s.bank := by
  unfold refreshGroup
  obtain ⟨n, hn⟩ : ∃ n, maps.length = mc + n := ⟨maps.length - mc, by omega⟩
  have hn' : maps.length - mc = n := by omega
  rw [hn']
  clear hn'
  induction n generalizing mc s with
  | zero =>
    rw [List.range'_zero, List.foldl_nil]
    have : mc = maps.length := by omega
    rw [← this]
    exact ⟨h, rfl, rfl⟩
  | succ n ih =>
    rw [List.range'_succ, List.foldl_cons]
    refine ih (mc + 1) _ (by omega) ?_ (by omega)
    have hlt : mc < maps.length := by omega
    have hS : (((entries maps it).map Prod.fst).take (mc + 1)).sum =
        (((entries maps it).map Prod.fst).take mc).sum + (deref maps it mc).1 := by
      rw [List.take_succ_eq_append_getElem (by simp [entries]; omega), List.sum_append]
      simp [entries]
    have hD : (((entries maps it).map Prod.snd).take (mc + 1)).prod =
        (((entries maps it).map Prod.snd).take mc).prod * (deref maps it mc).2 := by
      rw [List.take_succ_eq_append_getElem (by simp [entries]; omega), List.prod_append]
      simp [entries]
    refine ⟨by simpa using h.lenS, by simpa using h.lenD, by simpa using h.lenC, ?_, ?_, ?_⟩
    · intro i hi
      by_cases him : i = mc
      · subst him
        rw [List.getD_eq_getElem _ _ (by simp [h.lenC]; omega)]; simp
      · rw [List.getD_eq_getElem?_getD, List.getElem?_set_ne (by omega),
          ← List.getD_eq_getElem?_getD]
        exact h.cur i (by omega)
    · intro i hi
      by_cases him : i = mc
      · subst him
        rw [List.getD_eq_getElem _ _ (by simp [h.lenS]; omega), List.getElem_set_self, hS, add_comm]
        congr 1
        by_cases h0 : i = 0
        · simp [h0]
        · rw [if_neg h0, h.accS (i - 1) (by omega)]
          congr 2; omega
      · rw [List.getD_eq_getElem?_getD, List.getElem?_set_ne (by omega),
          ← List.getD_eq_getElem?_getD]
        exact h.accS i (by omega)
    · intro i hi
      by_cases him : i = mc
      · subst him
        rw [List.getD_eq_getElem _ _ (by simp [h.lenD]; omega), List.getElem_set_self, hD,
          Nat.mul_comm]
        congr 1
        by_cases h0 : i = 0
        · simp [h0]
        · rw [if_neg h0, h.accD (i - 1) (by omega)]
          congr 2; omega
      · rw [List.getD_eq_getElem?_getD, List.getElem?_set_ne (by omega),
          ← List.getD_eq_getElem?_getD]
        exact h.accD i (by omega)

theorem getLastD_eq_getD {β : Type} (l : List β) (d : β) : l.getLastD d = l.getD (l.length - 1) d := by
  induction l with
  | nil => rfl
  | cons x l ih =>
    cases l with
    | nil => rfl
    | cons y l =>
      simp only [List.length_cons, Nat.add_sub_cancel] at ih ⊢
      rw [List.getD_cons_succ, ← ih]
      rfl

/-- With complete caches the callback sees the whole combination. -/
theorem CacheOk.full {maps : List (List (σ × ℕ))} {it : List ℕ} {s : GroupState σ}
    (h0 : 0 < maps.length) (h : CacheOk maps it maps.length s) :
    s.cur = (entries maps it).map Prod.fst ∧
    s.accS.getLastD 0 = ((entries maps it).map Prod.fst).sum ∧
    s.accD.getLastD 0 = ((entries maps it).map Prod.snd).prod := by
  refine ⟨?_, ?_, ?_⟩
  · apply List.ext_getElem
    · simp [entries, h.lenC]
    · intro i h1 h2
      have := h.cur i (by rw [← h.lenC]; exact h1)
      rw [List.getD_eq_getElem _ _ h1] at this
      rw [this]; simp [entries]
  · rw [getLastD_eq_getD, h.lenS, h.accS _ (by omega), List.take_of_length_le]
    simp [entries]; omega
  · rw [getLastD_eq_getD, h.lenD, h.accD _ (by omega), List.take_of_length_le]
    simp [entries]; omega

/-- The loop with caches is a plain fold over the combinations. -/
theorem groupFold_spec (maps : List (List (σ × ℕ))) (h0 : 0 < maps.length)
    (record : GroupState σ → GroupState σ)
    (rec' : List (List σ × (σ × ℕ)) × List (σ × ℕ) → List σ × ℕ →
      List (List σ × (σ × ℕ)) × List (σ × ℕ))
    (hrec : ∀ s, (record s).accS = s.accS ∧ (record s).accD = s.accD ∧ (record s).cur = s.cur)
    (hrec' : ∀ s, s.accS.getLastD 0 = s.cur.sum →
      ((record s).offset, (record s).bank) = rec' (s.offset, s.bank) (s.cur, s.accD.getLastD 0))
    (l : List (List ℕ)) (hl : ∀ it ∈ l, it.length = maps.length)
    (prev : List ℕ) (mc : ℕ) (s : GroupState σ) (hmc : mc ≤ maps.length)
    (hc : CacheOk maps prev mc s) :
    ((l.foldl (visitStep fun it mc s => (maps.length, record (refreshGroup maps it mc s)))
        (prev, mc, s)).2.2.offset,
     (l.foldl (visitStep fun it mc s => (maps.length, record (refreshGroup maps it mc s)))
        (prev, mc, s)).2.2.bank) =
      (l.map fun it => ((entries maps it).map Prod.fst, ((entries maps it).map Prod.snd).prod)).foldl
        rec' (s.offset, s.bank) := by
  induction l generalizing prev mc s with
  | nil => rfl
  | cons it l ih =>
    rw [List.foldl_cons, List.map_cons, List.foldl_cons]
    have hcp := commonPrefix_le_right prev it
    have hd : ∀ i, i < commonPrefix prev it → deref maps prev i = deref maps it i := by
      intro i hi
      unfold deref
      rw [getD_commonPrefix hi]
    have htake : ∀ {γ : Type} (f : σ × ℕ → γ) (i : ℕ), i < min mc (commonPrefix prev it) →
        ((entries maps prev).map f).take (i + 1) = ((entries maps it).map f).take (i + 1) := by
      intro γ f i hi
      apply List.ext_getElem
      · simp [entries]
      · intro j hj1 hj2
        have hj : j < i + 1 := by simp at hj1; omega
        simp only [List.getElem_take, List.getElem_map, entries, List.getElem_range]
        rw [hd j (by omega)]
    obtain ⟨c1, c2, c3⟩ := refreshGroup_spec maps it (min mc (commonPrefix prev it)) s (by omega)
      ⟨hc.lenS, hc.lenD, hc.lenC,
        fun i hi => by rw [hc.cur i (by omega), hd i (by omega)],
        fun i hi => by rw [hc.accS i (by omega), htake _ i hi],
        fun i hi => by rw [hc.accD i (by omega), htake _ i hi]⟩
    obtain ⟨f1, f2, f3⟩ := c1.full h0
    have hr := hrec (refreshGroup maps it (min mc (commonPrefix prev it)) s)
    have hr' := hrec' (refreshGroup maps it (min mc (commonPrefix prev it)) s) (by rw [f1, f2])
    rw [c2, c3, f1, f3] at hr'
    rw [← hr']
    exact ih (fun x hx => hl x (by simp [hx])) it maps.length _ (le_refl _)
      ⟨by rw [hr.1]; exact c1.lenS, by rw [hr.2.1]; exact c1.lenD, by rw [hr.2.2]; exact c1.lenC,
        by rw [hr.2.2]; exact c1.cur, by rw [hr.1]; exact c1.accS, by rw [hr.2.1]; exact c1.accD⟩

omit [TatSym σ] in
theorem combos_nil_of_empty {maps : List (List (σ × ℕ))} (h : [] ∈ maps) : combos maps = [] := by
  simp [combos, choices_eq_nil h]

theorem splitRecord_fields (s : GroupState σ) :
    (splitRecord s).accS = s.accS ∧ (splitRecord s).accD = s.accD ∧ (splitRecord s).cur = s.cur := by
  unfold splitRecord; split <;> exact ⟨rfl, rfl, rfl⟩

theorem tuples_combos (maps : List (List (σ × ℕ))) :
    ((tuples (maps.map List.length)).map fun it =>
      ((entries maps it).map Prod.fst, ((entries maps it).map Prod.snd).prod)) = combos maps := by
  unfold combos
  rw [← tuples_entries, List.map_map]
  rfl

/-- The merge loop is a fold over all combinations; without edges there is one empty combination. -/
theorem mergeGroup_eq (maps : List (List (σ × ℕ))) :
    mergeGroup maps = (((combos maps).foldl mergeRec ([], [])).2,
      ((combos maps).foldl mergeRec ([], [])).1) := by
  unfold mergeGroup
  dsimp only
  by_cases h0 : maps = []
  · subst h0
    simp [loopEdge, combos, choices, mergeRec, OMap.set, OMap.find?]
  · by_cases hne : ∀ m ∈ maps, m ≠ []
    · rw [loopEdge_eq _ _ _ _ h0 hne]
      have := groupFold_spec maps (List.length_pos_iff.2 h0) mergeRecord mergeRec
        (fun s => ⟨rfl, rfl, rfl⟩) (fun s hs => by simp only [mergeRecord, mergeRec, hs])
        (tuples (maps.map List.length))
        (fun it hit => by simpa using (mem_tuples.1 hit).length.symm) [] 0
        ⟨List.replicate maps.length 0, List.replicate maps.length 0, List.replicate maps.length 0,
          [], []⟩ (by omega)
        ⟨by simp, by simp, by simp, by simp, by simp, by simp⟩
      rw [tuples_combos] at this
      rw [← this]
      rfl
    · push Not at hne
      obtain ⟨m, hm, rfl⟩ := hne
      rw [combos_nil_of_empty hm]
      unfold loopEdge
      rw [if_neg (by simpa using h0), if_pos (by rw [List.any_eq_true]; exact ⟨[], hm, rfl⟩)]
      rfl

/-- The split loop is a fold over all combinations.  Without edges it records the empty combination
whether or not the edge has the symmetry zero. -/
theorem splitOffset_eq (edgeMap : List (σ × ℕ)) {maps : List (List (σ × ℕ))} (h0 : maps ≠ []) :
    splitOffset edgeMap maps = ((combos maps).foldl splitRec
      ([], edgeMap.foldl (fun m p => OMap.set m p.1 0) [])).1 := by
  unfold splitOffset
  by_cases hne : ∀ m ∈ maps, m ≠ []
  · rw [loopEdge_eq _ _ _ _ h0 hne]
    have := groupFold_spec maps (List.length_pos_iff.2 h0) splitRecord splitRec
      splitRecord_fields (fun s hs => by
        unfold splitRecord splitRec
        rw [hs]
        dsimp only
        cases OMap.find? s.bank s.cur.sum <;> rfl)
      (tuples (maps.map List.length))
      (fun it hit => by simpa using (mem_tuples.1 hit).length.symm) [] 0
      ⟨List.replicate maps.length 0, List.replicate maps.length 0, List.replicate maps.length 0,
        [], edgeMap.foldl (fun m p => OMap.set m p.1 0) []⟩ (by omega)
      ⟨by simp, by simp, by simp, by simp, by simp, by simp⟩
    rw [tuples_combos] at this
    rw [← this]
    rfl
  · push Not at hne
    obtain ⟨m, hm, rfl⟩ := hne
    rw [combos_nil_of_empty hm]
    unfold loopEdge
    rw [if_neg (by simpa using h0), if_pos (by rw [List.any_eq_true]; exact ⟨[], hm, rfl⟩)]
    rfl

theorem splitOffset_nil (edgeMap : List (σ × ℕ)) : splitOffset edgeMap [] = [([], (0, 0))] := by
  simp [splitOffset, loopEdge, OMap.set]

/-! ## what the folds compute -/

theorem mergeRec_fold (l : List (List σ × ℕ)) (hn : (l.map Prod.fst).Nodup) :
    OMap.Sorted (l.foldl mergeRec ([], [])).2 ∧
    (∀ s, OMap.find? (l.foldl mergeRec ([], [])).2 s =
      if s ∈ l.map (fun c => c.1.sum) then
        some (((l.filter fun c => c.1.sum = s).map Prod.snd).sum) else none) ∧
    (∀ k, OMap.find? (l.foldl mergeRec ([], [])).1 k =
      if k ∈ l.map Prod.fst then
        some (k.sum, prefixSize (l.filter fun c => c.1.sum = k.sum) k) else none) := by
  induction l using List.reverseRecOn with
  | nil => exact ⟨by simp [OMap.Sorted], fun s => by simp [OMap.find?], fun k => by simp [OMap.find?]⟩
  | append_singleton l c ih =>
    rw [List.map_append, List.nodup_append] at hn
    obtain ⟨ih1, ih2, ih3⟩ := ih hn.1
    have hc : c.1 ∉ l.map Prod.fst := by
      intro hc
      exact hn.2.2 _ hc c.1 (by simp) rfl
    rw [List.foldl_append, List.foldl_cons, List.foldl_nil]
    generalize l.foldl mergeRec ([], []) = st at ih1 ih2 ih3
    have hget : (OMap.find? st.2 c.1.sum).getD 0 =
        ((l.filter fun d => d.1.sum = c.1.sum).map Prod.snd).sum := by
      rw [ih2]
      split
      · rfl
      · rename_i h
        have : l.filter (fun d => decide (d.1.sum = c.1.sum)) = [] := by
          rw [List.filter_eq_nil_iff]
          intro a ha hs
          exact h (List.mem_map.2 ⟨a, ha, by simpa using hs⟩)
        rw [this]; rfl
    refine ⟨?_, ?_, ?_⟩
    · exact ih1.set _ _
    · intro s
      unfold mergeRec
      dsimp only
      rw [OMap.find?_set, hget, List.filter_append, List.map_append, List.map_append]
      by_cases hs : s = c.1.sum
      · subst hs
        simp
      · rw [if_neg hs, ih2 s]
        have : ¬ c.1.sum = s := fun h => hs h.symm
        simp only [List.map_cons, List.map_nil, List.mem_append, List.mem_singleton, hs, or_false,
          List.filter_cons, this, decide_false, List.filter_nil, Bool.false_eq_true, if_false,
          List.append_nil]
    · intro k
      unfold mergeRec
      dsimp only
      rw [OMap.find?_set, hget, ih3 k, List.filter_append, prefixSize_append, List.map_append]
      by_cases hk : k = c.1
      · subst hk
        have : c.1 ∉ (l.filter fun d => d.1.sum = c.1.sum).map Prod.fst := by
          intro h
          obtain ⟨d, hd, he⟩ := List.mem_map.1 h
          exact hc (List.mem_map.2 ⟨d, (List.mem_filter.1 hd).1, he⟩)
        rw [if_neg this]
        have h2 : prefixSize (List.filter (fun d => decide (d.1.sum = c.1.sum)) [c]) c.1 = 0 := by
          simp [prefixSize]
        rw [h2]
        simp
      · rw [if_neg hk]
        by_cases hl : k ∈ l.map Prod.fst
        · have : k ∈ (l.filter fun d => d.1.sum = k.sum).map Prod.fst := by
            obtain ⟨d, hd, he⟩ := List.mem_map.1 hl
            exact List.mem_map.2 ⟨d, List.mem_filter.2 ⟨hd, by simp [he]⟩, he⟩
          rw [if_pos hl, if_pos this, if_pos (List.mem_append_left _ hl)]
        · rw [if_neg hl, if_neg]
          simp only [List.map_cons, List.map_nil, List.mem_append, List.mem_singleton]
          rintro (h | h)
          · exact hl h
          · exact hk h

theorem splitRec_fold (m : List (σ × ℕ)) (bank : List (σ × ℕ))
    (hb : ∀ s, OMap.find? bank s = if s ∈ OMap.keys m then some 0 else none)
    (l : List (List σ × ℕ)) (hn : (l.map Prod.fst).Nodup) :
    (∀ s, OMap.find? (l.foldl splitRec ([], bank)).2 s =
      if s ∈ OMap.keys m then
        some (((l.filter fun c => c.1.sum = s).map Prod.snd).sum) else none) ∧
    (∀ k, OMap.find? (l.foldl splitRec ([], bank)).1 k =
      if k ∈ l.map Prod.fst ∧ k.sum ∈ OMap.keys m then
        some (k.sum, prefixSize (l.filter fun c => c.1.sum = k.sum) k) else none) := by
  induction l using List.reverseRecOn with
  | nil => exact ⟨fun s => by simpa using hb s, fun k => by simp [OMap.find?]⟩
  | append_singleton l c ih =>
    rw [List.map_append, List.nodup_append] at hn
    obtain ⟨ih2, ih3⟩ := ih hn.1
    have hc : c.1 ∉ l.map Prod.fst := by
      intro hc
      exact hn.2.2 _ hc c.1 (by simp) rfl
    rw [List.foldl_append, List.foldl_cons, List.foldl_nil]
    generalize l.foldl splitRec ([], bank) = st at ih2 ih3
    have hnil : c.1 ∉ (l.filter fun d => d.1.sum = c.1.sum).map Prod.fst := by
      intro h
      obtain ⟨d, hd, he⟩ := List.mem_map.1 h
      exact hc (List.mem_map.2 ⟨d, (List.mem_filter.1 hd).1, he⟩)
    have hother : ∀ k, k ≠ c.1 →
        (if k ∈ (l ++ [c]).map Prod.fst ∧ k.sum ∈ OMap.keys m then
          some (k.sum, prefixSize ((l ++ [c]).filter fun d => d.1.sum = k.sum) k) else none) =
        if k ∈ l.map Prod.fst ∧ k.sum ∈ OMap.keys m then
          some (k.sum, prefixSize (l.filter fun d => d.1.sum = k.sum) k) else none := by
      intro k hk
      rw [List.filter_append, prefixSize_append, List.map_append]
      by_cases hl : k ∈ l.map Prod.fst
      · have : k ∈ (l.filter fun d => d.1.sum = k.sum).map Prod.fst := by
          obtain ⟨d, hd, he⟩ := List.mem_map.1 hl
          exact List.mem_map.2 ⟨d, List.mem_filter.2 ⟨hd, by simp [he]⟩, he⟩
        rw [if_pos this]
        simp only [hl, List.mem_append, true_or]
      · rw [if_neg, if_neg]
        · rintro ⟨h, _⟩; exact hl h
        · rintro ⟨h, _⟩
          simp only [List.map_cons, List.map_nil, List.mem_append, List.mem_singleton] at h
          rcases h with h | h
          · exact hl h
          · exact hk h
    by_cases hm : c.1.sum ∈ OMap.keys m
    · have hf := ih2 c.1.sum
      rw [if_pos hm] at hf
      have hstep : splitRec st c = (OMap.set st.1 c.1 (c.1.sum,
          ((l.filter fun d => d.1.sum = c.1.sum).map Prod.snd).sum), OMap.set st.2 c.1.sum
          (((l.filter fun d => d.1.sum = c.1.sum).map Prod.snd).sum + c.2)) := by
        unfold splitRec
        rw [hf]
      rw [hstep]
      refine ⟨?_, ?_⟩
      · intro s
        dsimp only
        rw [OMap.find?_set, List.filter_append, List.map_append]
        by_cases hs : s = c.1.sum
        · subst hs
          simp [hm]
        · rw [if_neg hs, ih2 s]
          have : ¬ c.1.sum = s := fun h => hs h.symm
          simp [this]
      · intro k
        dsimp only
        rw [OMap.find?_set]
        by_cases hk : k = c.1
        · subst hk
          rw [if_pos rfl, if_pos ⟨by simp, hm⟩, List.filter_append, prefixSize_append, if_neg hnil]
          have h2 : prefixSize (List.filter (fun d => decide (d.1.sum = c.1.sum)) [c]) c.1 = 0 := by
            simp [prefixSize]
          rw [h2]; rfl
        · rw [if_neg hk, ih3 k, hother k hk]
    · have hf := ih2 c.1.sum
      rw [if_neg hm] at hf
      have hstep : splitRec st c = st := by
        unfold splitRec
        rw [hf]
      rw [hstep]
      refine ⟨?_, ?_⟩
      · intro s
        rw [ih2 s, List.filter_append]
        by_cases hs : s = c.1.sum
        · subst hs; simp [hm]
        · have : ¬ c.1.sum = s := fun h => hs h.symm
          simp [this]
      · intro k
        by_cases hk : k = c.1
        · subst hk
          rw [ih3, if_neg (fun h => hc h.1), if_neg (fun h => hm h.2)]
        · rw [ih3 k, hother k hk]

theorem bank_init (m : List (σ × ℕ)) (acc : List (σ × ℕ)) (s : σ) :
    OMap.find? (m.foldl (fun m p => OMap.set m p.1 0) acc) s =
      if s ∈ OMap.keys m then some 0 else OMap.find? acc s := by
  induction m generalizing acc with
  | nil => simp [OMap.keys]
  | cons x m ih =>
    rw [List.foldl_cons, ih, OMap.find?_set, OMap.keys_cons]
    by_cases h1 : s ∈ OMap.keys m
    · simp [h1]
    · by_cases h2 : s = x.1
      · simp [h2]
      · simp [h1, h2]

theorem combos_keys_nodup {maps : List (List (σ × ℕ))} (h : ∀ m ∈ maps, OMap.Sorted m) :
    ((combos maps).map Prod.fst).Nodup := by
  have := choices_sorted h
  unfold combos
  rw [List.map_map]
  exact List.Pairwise.imp (fun hab => ne_of_lt hab) this

/-- Membership of a key among the combinations. -/
theorem mem_combos_keys {maps : List (List (σ × ℕ))} {k : List σ} :
    k ∈ (combos maps).map Prod.fst ↔ List.Forall₂ (fun m s => s ∈ OMap.keys m) maps k := by
  unfold combos
  rw [List.map_map, List.mem_map]
  simp only [mem_choices, Function.comp]
  induction maps generalizing k with
  | nil =>
    constructor
    · rintro ⟨c, hc, rfl⟩; cases hc; exact .nil
    · intro h; cases h; exact ⟨[], .nil, rfl⟩
  | cons m ms ih =>
    constructor
    · rintro ⟨c, hc, rfl⟩
      cases hc with
      | cons h1 h2 => exact .cons (List.mem_map_of_mem h1) (ih.1 ⟨_, h2, rfl⟩)
    · intro h
      cases h with
      | cons h1 h2 =>
        obtain ⟨x, hx, rfl⟩ := List.mem_map.1 h1
        obtain ⟨c, hc, rfl⟩ := ih.2 h2
        exact ⟨x :: c, .cons hx hc, rfl⟩

/-- The size of a combination is the product of the dimensions. -/
theorem mem_combos {maps : List (List (σ × ℕ))} (h : ∀ m ∈ maps, OMap.Sorted m) {k : List σ}
    {n : ℕ} : (k, n) ∈ combos maps ↔
      List.Forall₂ (fun m s => s ∈ OMap.keys m) maps k ∧ n = (List.zipWith dimM maps k).prod := by
  unfold combos
  rw [List.mem_map]
  simp only [mem_choices, Prod.mk.injEq]
  induction maps generalizing k n with
  | nil =>
    constructor
    · rintro ⟨c, hc, rfl, rfl⟩; cases hc; exact ⟨.nil, rfl⟩
    · rintro ⟨hk, rfl⟩; cases hk; exact ⟨[], .nil, rfl, rfl⟩
  | cons m ms ih =>
    have hms : ∀ m ∈ ms, OMap.Sorted m := fun x hx => h x (by simp [hx])
    have hm := h m (by simp)
    constructor
    · rintro ⟨c, hc, rfl, rfl⟩
      cases hc with
      | @cons _ x _ c h1 h2 =>
        obtain ⟨i1, i2⟩ := (ih hms).1 ⟨c, h2, rfl, rfl⟩
        refine ⟨.cons (List.mem_map_of_mem h1) i1, ?_⟩
        have : dimM m x.1 = x.2 := by
          unfold dimM
          rw [OMap.find?_of_mem hm.nodup h1]; rfl
        simp only [List.map_cons, List.prod_cons, List.zipWith_cons_cons, this]
        rw [i2]
    · rintro ⟨hk, rfl⟩
      cases hk with
      | @cons _ s _ k h1 h2 =>
        obtain ⟨x, hx, rfl⟩ := List.mem_map.1 h1
        obtain ⟨c, hc, rfl, h4⟩ := (ih hms).2 ⟨h2, rfl⟩
        refine ⟨x :: c, .cons hx hc, rfl, ?_⟩
        have : dimM m x.1 = x.2 := by
          unfold dimM
          rw [OMap.find?_of_mem hm.nodup hx]; rfl
        simp only [List.map_cons, List.prod_cons, List.zipWith_cons_cons, this]
        rw [h4]

/-- The merged edge. -/
theorem mergeGroup_map {maps : List (List (σ × ℕ))} (h : ∀ m ∈ maps, OMap.Sorted m) :
    OMap.Sorted (mergeGroup maps).1 ∧
    (∀ s, s ∈ OMap.keys (mergeGroup maps).1 ↔
      ∃ k, List.Forall₂ (fun m s => s ∈ OMap.keys m) maps k ∧ k.sum = s) ∧
    (∀ s, dimM (mergeGroup maps).1 s = mergedDim maps s) := by
  obtain ⟨h1, h2, _⟩ := mergeRec_fold (combos maps) (combos_keys_nodup h)
  rw [mergeGroup_eq]
  refine ⟨h1, fun s => ?_, fun s => ?_⟩
  · rw [← OMap.find?_isSome, h2]
    have : s ∈ (combos maps).map (fun c => c.1.sum) ↔
        ∃ k, List.Forall₂ (fun m s => s ∈ OMap.keys m) maps k ∧ k.sum = s := by
      constructor
      · intro hs
        obtain ⟨c, hc, rfl⟩ := List.mem_map.1 hs
        exact ⟨c.1, mem_combos_keys.1 (List.mem_map_of_mem hc), rfl⟩
      · rintro ⟨k, hk, rfl⟩
        obtain ⟨c, hc, rfl⟩ := List.mem_map.1 (mem_combos_keys.2 hk)
        exact List.mem_map.2 ⟨c, hc, rfl⟩
    rw [← this]
    split
    · rename_i h3; simp only [Option.isSome_some, h3]
    · rename_i h3; simp only [Option.isSome_none, Bool.false_eq_true, h3]
  · unfold dimM
    dsimp only
    rw [h2]
    unfold mergedDim sameTotal
    split
    · rfl
    · rename_i hs
      have : (combos maps).filter (fun d => decide (d.1.sum = s)) = [] := by
        rw [List.filter_eq_nil_iff]
        intro a ha hs'
        exact hs (List.mem_map.2 ⟨a, ha, by simpa using hs'⟩)
      rw [this]; rfl

/-- The offset table of a merged edge. -/
theorem mergeGroup_offset {maps : List (List (σ × ℕ))} (h : ∀ m ∈ maps, OMap.Sorted m) {k : List σ}
    (hk : List.Forall₂ (fun m s => s ∈ OMap.keys m) maps k) :
    OMap.find? (mergeGroup maps).2 k = some (k.sum, mergeOffset maps k) := by
  obtain ⟨_, _, h3⟩ := mergeRec_fold (combos maps) (combos_keys_nodup h)
  rw [mergeGroup_eq]
  dsimp only
  rw [h3, if_pos (mem_combos_keys.2 hk)]
  rfl

/-- The offset table of a split edge. -/
theorem splitOffset_find {edgeMap : List (σ × ℕ)} {maps : List (List (σ × ℕ))} (h0 : maps ≠ [])
    (h : ∀ m ∈ maps, OMap.Sorted m) {k : List σ}
    (hk : List.Forall₂ (fun m s => s ∈ OMap.keys m) maps k) :
    OMap.find? (splitOffset edgeMap maps) k =
      if k.sum ∈ OMap.keys edgeMap then some (k.sum, mergeOffset maps k) else none := by
  obtain ⟨_, h3⟩ := splitRec_fold edgeMap (edgeMap.foldl (fun m p => OMap.set m p.1 0) [])
    (fun s => by rw [bank_init]; simp [OMap.find?]) (combos maps) (combos_keys_nodup h)
  rw [splitOffset_eq _ h0, h3]
  have := mem_combos_keys.2 hk
  simp only [this, true_and]
  rfl

/-! ## coarse and fine indices of one group -/

theorem sameTotal_nodup {maps : List (List (σ × ℕ))} (h : ∀ m ∈ maps, OMap.Sorted m) (s : σ) :
    ((sameTotal maps s).map Prod.fst).Nodup :=
  (combos_keys_nodup h).sublist (List.filter_sublist.map _)

theorem mem_sameTotal {maps : List (List (σ × ℕ))} (h : ∀ m ∈ maps, OMap.Sorted m) {k : List σ}
    (hk : List.Forall₂ (fun m s => s ∈ OMap.keys m) maps k) :
    (k, (List.zipWith dimM maps k).prod) ∈ sameTotal maps k.sum :=
  List.mem_filter.2 ⟨(mem_combos h).2 ⟨hk, rfl⟩, by simp⟩

/-- A fine index is inside the merged edge. -/
theorem group_lt {maps : List (List (σ × ℕ))} (h : ∀ m ∈ maps, OMap.Sorted m) {k : List σ}
    (hk : List.Forall₂ (fun m s => s ∈ OMap.keys m) maps k) {idx : List ℕ}
    (hi : InBox (List.zipWith dimM maps k) idx) :
    mergeOffset maps k + rowMajor (List.zipWith dimM maps k) idx < mergedDim maps k.sum := by
  have := prefixSize_add_le (sameTotal_nodup h k.sum) (mem_sameTotal h hk)
  have := rowMajor_lt hi
  unfold mergeOffset mergedDim
  omega

/-- Different fine indices are different coarse indices. -/
theorem group_inj {maps : List (List (σ × ℕ))} (h : ∀ m ∈ maps, OMap.Sorted m) {k k' : List σ}
    (hk : List.Forall₂ (fun m s => s ∈ OMap.keys m) maps k)
    (hk' : List.Forall₂ (fun m s => s ∈ OMap.keys m) maps k') {idx idx' : List ℕ}
    (hi : InBox (List.zipWith dimM maps k) idx) (hi' : InBox (List.zipWith dimM maps k') idx')
    (hs : k.sum = k'.sum)
    (he : mergeOffset maps k + rowMajor (List.zipWith dimM maps k) idx =
      mergeOffset maps k' + rowMajor (List.zipWith dimM maps k') idx') : k = k' ∧ idx = idx' := by
  have h1 := mem_sameTotal h hk
  have h2 := mem_sameTotal h hk'
  unfold mergeOffset at he
  rw [← hs] at h2 he
  obtain ⟨e1, e2⟩ := prefixSize_disjoint (sameTotal_nodup h k.sum) h1 h2 (rowMajor_lt hi)
    (rowMajor_lt hi') he
  subst e1
  exact ⟨rfl, rowMajor_inj hi hi' e2⟩

/-- Every coarse index of the merged edge is a fine index. -/
theorem group_surj {maps : List (List (σ × ℕ))} (h : ∀ m ∈ maps, OMap.Sorted m) {s : σ} {i : ℕ}
    (hi : i < mergedDim maps s) :
    ∃ k idx, List.Forall₂ (fun m s => s ∈ OMap.keys m) maps k ∧ k.sum = s ∧
      InBox (List.zipWith dimM maps k) idx ∧
      i = mergeOffset maps k + rowMajor (List.zipWith dimM maps k) idx := by
  obtain ⟨k, n, j, h1, h2, h3⟩ := prefixSize_cover (sameTotal_nodup h s) hi
  obtain ⟨h4, h5⟩ := List.mem_filter.1 h1
  obtain ⟨h6, rfl⟩ := (mem_combos h).1 h4
  have hs : k.sum = s := by simpa using h5
  refine ⟨k, unravel (List.zipWith dimM maps k) j, h6, hs, inBox_unravel h2, ?_⟩
  rw [rowMajor_unravel h2, h3, ← hs]
  rfl

end loops

end TAT
