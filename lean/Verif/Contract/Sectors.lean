import Verif.Contract.Restrict

/-!
# Contraction when the contracted edges have different symmetries

For fermions `contract_without_fuse` leaves out the symmetries of the contracted edges whose opposites
the partner lacks; it does the same as for the tensors without these symmetries.
-/

namespace TAT

variable {ν σ α : Type} [LinearOrder ν] [TatSym σ]

/-! ## what is left out -/

/-- The symmetries of the edges of the first tensor whose opposites the partner has. -/
def shared1 (t2 : Tensor ν σ α) (cs : List (ν × ν)) (n : ν) (s : σ) : Bool :=
  cs.all fun c => !decide (c.1 = n) || (OMap.find? (mapOf t2 c.2) (-s)).isSome

/-- The symmetries of the edges of the second tensor whose opposites the partner has. -/
def shared2 (t1 : Tensor ν σ α) (cs : List (ν × ν)) (n : ν) (s : σ) : Bool :=
  cs.all fun c => !decide (c.2 = n) || (OMap.find? (mapOf t1 c.1) (-s)).isSome

theorem shared1_free {t2 : Tensor ν σ α} {cs : List (ν × ν)} {n : ν} (hn : n ∉ cs.map Prod.fst) (s : σ) :
    shared1 t2 cs n s = true := by
  unfold shared1
  rw [List.all_eq_true]
  intro c hc
  have : c.1 ≠ n := fun h => hn (h ▸ List.mem_map_of_mem hc)
  simp [this]

theorem shared2_free {t1 : Tensor ν σ α} {cs : List (ν × ν)} {n : ν} (hn : n ∉ cs.map Prod.snd) (s : σ) :
    shared2 t1 cs n s = true := by
  unfold shared2
  rw [List.all_eq_true]
  intro c hc
  have : c.2 ≠ n := fun h => hn (h ▸ List.mem_map_of_mem hc)
  simp [this]

theorem shared1_common {t2 : Tensor ν σ α} {cs : List (ν × ν)} (hn : (cs.map Prod.fst).Nodup)
    {c : ν × ν} (hc : c ∈ cs) (s : σ) :
    shared1 t2 cs c.1 s = (OMap.find? (mapOf t2 c.2) (-s)).isSome := by
  unfold shared1
  rw [Bool.eq_iff_iff, List.all_eq_true]
  constructor
  · intro h
    simpa using h c hc
  · intro h d hd
    by_cases he : d.1 = c.1
    · rw [eq_of_fst hn hd hc he]
      simp [h]
    · simp [he]

theorem shared2_common {t1 : Tensor ν σ α} {cs : List (ν × ν)} (hn : (cs.map Prod.snd).Nodup)
    {c : ν × ν} (hc : c ∈ cs) (s : σ) :
    shared2 t1 cs c.2 s = (OMap.find? (mapOf t1 c.1) (-s)).isSome := by
  unfold shared2
  rw [Bool.eq_iff_iff, List.all_eq_true]
  constructor
  · intro h
    simpa using h c hc
  · intro h d hd
    by_cases he : d.2 = c.2
    · rw [eq_of_snd hn hd hc he]
      simp [h]
    · simp [he]

theorem shared1_perm {t2 : Tensor ν σ α} {cs cs' : List (ν × ν)} (h : cs'.Perm cs) :
    shared1 t2 cs' = shared1 t2 cs := by
  funext n s
  unfold shared1
  rw [Bool.eq_iff_iff, List.all_eq_true, List.all_eq_true]
  exact forall_congr' fun c => by rw [h.mem_iff]

theorem shared2_perm {t1 : Tensor ν σ α} {cs cs' : List (ν × ν)} (h : cs'.Perm cs) :
    shared2 t1 cs' = shared2 t1 cs := by
  funext n s
  unfold shared2
  rw [Bool.eq_iff_iff, List.all_eq_true, List.all_eq_true]
  exact forall_congr' fun c => by rw [h.mem_iff]

/-! ## the cuts -/

theorem deleteSteps {other : Edge σ} (l acc : List (σ × ℕ))
    (hd : ∀ x ∈ l, ∀ d, OMap.find? other.map (-x.1) = some d → d = x.2) :
    ∃ m, l.foldlM (deleteStep other) acc = .ok m ∧ ∀ s, OMap.find? m s =
      if s ∈ OMap.keys l ∧ OMap.find? other.map (-s) = none then some 0 else OMap.find? acc s := by
  induction l generalizing acc with
  | nil => exact ⟨acc, rfl, fun s => by simp [OMap.keys]⟩
  | cons x l ih =>
    rw [List.foldlM_cons]
    have hstep : deleteStep other acc x = .ok (if OMap.find? other.map (-x.1) = none then
        OMap.set acc x.1 0 else acc) := by
      unfold deleteStep
      cases hx : OMap.find? other.map (-x.1) with
      | none => simp
      | some d =>
        have := hd x List.mem_cons_self d hx
        simp [this]
    rw [hstep]
    obtain ⟨m, hm, hs⟩ := ih (if OMap.find? other.map (-x.1) = none then
        OMap.set acc x.1 0 else acc) fun y hy => hd y (List.mem_cons_of_mem _ hy)
    refine ⟨m, hm, fun s => ?_⟩
    rw [hs s]
    have hk : s ∈ OMap.keys (x :: l) ↔ s = x.1 ∨ s ∈ OMap.keys l := by simp [OMap.keys]
    have hacc : OMap.find? (if OMap.find? other.map (-x.1) = none then OMap.set acc x.1 0 else acc) s =
        if s = x.1 ∧ OMap.find? other.map (-s) = none then some 0 else OMap.find? acc s := by
      by_cases hx : s = x.1
      · subst hx
        by_cases hn : OMap.find? other.map (-x.1) = none
        · simp [hn, OMap.find?_set]
        · simp [hn]
      · simp only [hx, false_and, if_false]
        split
        · rw [OMap.find?_set, if_neg hx]
        · rfl
    rw [hacc]
    by_cases hn : OMap.find? other.map (-s) = none
    · by_cases hl : s ∈ OMap.keys l
      · rw [if_pos ⟨hl, hn⟩, if_pos ⟨hk.2 (.inr hl), hn⟩]
      · by_cases hx : s = x.1
        · rw [if_neg fun h => hl h.1, if_pos ⟨hx, hn⟩, if_pos ⟨hk.2 (.inl hx), hn⟩]
        · rw [if_neg fun h => hl h.1, if_neg fun h => hx h.1, if_neg fun h => (hk.1 h.1).elim hx hl]
    · simp [hn]

omit [LinearOrder ν] in
theorem cutSteps {c : List (σ × ℕ)} {q : σ → Bool} (l acc : List (σ × ℕ)) (hs : OMap.Sorted (acc ++ l))
    (hc : ∀ x ∈ l, OMap.find? c x.1 = if q x.1 then none else some 0) :
    l.foldl (cutStep c) acc = acc ++ l.filter fun x => q x.1 := by
  induction l generalizing acc with
  | nil => simp
  | cons x l ih =>
    rw [List.foldl_cons, List.filter_cons]
    have hx := hc x List.mem_cons_self
    unfold cutStep
    by_cases hq : q x.1 = true
    · rw [if_pos hq] at hx ⊢
      rw [hx]
      dsimp only
      have hset : OMap.set acc x.1 x.2 = acc ++ [x] := OMap.set_append fun k hk => by
        unfold OMap.Sorted at hs
        rw [List.map_append] at hs
        exact (List.pairwise_append.1 hs).2.2 k hk x.1 (by simp)
      have : OMap.Sorted ((acc ++ [x]) ++ l) := by simpa using hs
      have := ih (acc ++ [x]) this fun y hy => hc y (List.mem_cons_of_mem _ hy)
      rw [hset]
      unfold cutStep at this
      rw [this]
      simp
    · rw [if_neg hq] at hx ⊢
      rw [hx]
      have : OMap.Sorted (acc ++ l) := by
        refine List.Pairwise.sublist ?_ hs
        exact (List.Sublist.append_left (List.sublist_cons_self x l) acc).map _
      have := ih acc this fun y hy => hc y (List.mem_cons_of_mem _ hy)
      unfold cutStep at this
      simpa using this

/-- What `delete_unused_dimension` prepares for one edge. -/
theorem deleteUnused_spec {this other : Edge σ} (hs : OMap.Sorted this.map) {name : ν}
    (ha : TatSym.isFermi σ = true → this.arrow ≠ other.arrow)
    (hd : ∀ s d1 d2, OMap.find? this.map s = some d1 → OMap.find? other.map (-s) = some d2 → d1 = d2)
    {del : List (ν × List (σ × ℕ))} (hdel : OMap.find? del name = none) :
    ∃ d, deleteUnused this other name del = .ok d ∧
      (∀ n, n ≠ name → OMap.find? d n = OMap.find? del n) ∧
      cutEdge d name this = ⟨this.arrow, this.map.filter fun x => (OMap.find? other.map (-x.1)).isSome⟩ := by
  obtain ⟨m, hm, hms⟩ := deleteSteps (other := other) this.map [] fun x hx d h =>
    (hd x.1 x.2 d (OMap.find?_of_mem hs.nodup hx) h).symm
  refine ⟨if m.isEmpty then del else OMap.set del name m, ?_, ?_, ?_⟩
  · unfold deleteUnused
    rw [if_neg (by
      rw [Bool.and_eq_true, decide_eq_true_eq]
      rintro ⟨h1, h2⟩
      exact ha h1 h2), hm]
    rfl
  · intro n hn
    split
    · rfl
    · rw [OMap.find?_set, if_neg hn]
  · have hfind : ∀ x ∈ this.map, OMap.find? m x.1 =
        if (OMap.find? other.map (-x.1)).isSome then none else some 0 := by
      intro x hx
      rw [hms x.1]
      have hk : x.1 ∈ OMap.keys this.map := List.mem_map_of_mem hx
      cases ho : OMap.find? other.map (-x.1) with
      | none => simp [hk]
      | some d => simp [OMap.find?]
    unfold cutEdge
    cases m with
    | nil =>
      rw [if_pos List.isEmpty_nil, hdel]
      dsimp only
      have : this.map.filter (fun x => (OMap.find? other.map (-x.1)).isSome) = this.map := by
        refine List.filter_eq_self.2 fun x hx => ?_
        have := hfind x hx
        by_contra hc
        rw [if_neg hc] at this
        cases this
      rw [this]
    | cons y m =>
      rw [if_neg (by simp), OMap.find?_set, if_pos rfl]
      dsimp only
      rw [cutSteps (q := fun s => (OMap.find? other.map (-s)).isSome) this.map [] (by simpa using hs) hfind]
      rfl

theorem cutEdge_congr {d d' : List (ν × List (σ × ℕ))} {n : ν} (h : OMap.find? d n = OMap.find? d' n)
    (e : Edge σ) : cutEdge d n e = cutEdge d' n e := by
  unfold cutEdge
  rw [h]

/-- The edges of two tensors can be contracted: opposite arrows for fermions, and equal dimensions
where both edges have a symmetry. -/
structure Joined (t1 t2 : Tensor ν σ α) (cs : List (ν × ν)) : Prop where
  arrows : TatSym.isFermi σ = true → ∀ c ∈ cs, (edgeOf t1 c.1).arrow ≠ (edgeOf t2 c.2).arrow
  dims : ∀ c ∈ cs, ∀ s d1 d2, OMap.find? (mapOf t1 c.1) s = some d1 →
    OMap.find? (mapOf t2 c.2) (-s) = some d2 → d1 = d2

section
variable {t1 t2 : Tensor ν σ α}

theorem Joined.perm {cs cs' : List (ν × ν)} (h : Joined t1 t2 cs) (hp : cs'.Perm cs) :
    Joined t1 t2 cs' :=
  ⟨fun hf c hc => h.arrows hf c (hp.mem_iff.1 hc), fun c hc => h.dims c (hp.mem_iff.1 hc)⟩

theorem deletePairs_cut (h1 : Shaped t1) (h2 : Shaped t2) (co : List (ν × ν))
    (hp : Pairs t1.names t2.names co) (hj : Joined t1 t2 co)
    (del : List (ν × List (σ × ℕ)) × List (ν × List (σ × ℕ)))
    (hd1 : ∀ n ∈ co.map Prod.fst, OMap.find? del.1 n = none)
    (hd2 : ∀ n ∈ co.map Prod.snd, OMap.find? del.2 n = none) :
    ∃ d, co.foldlM (deletePair t1 t2) del = .ok d ∧
      (∀ n, n ∉ co.map Prod.fst → OMap.find? d.1 n = OMap.find? del.1 n) ∧
      (∀ n, n ∉ co.map Prod.snd → OMap.find? d.2 n = OMap.find? del.2 n) ∧
      ∀ c ∈ co,
        cutEdge d.1 c.1 (edgeOf t1 c.1) = ⟨(edgeOf t1 c.1).arrow,
          (mapOf t1 c.1).filter fun x => (OMap.find? (mapOf t2 c.2) (-x.1)).isSome⟩ ∧
        cutEdge d.2 c.2 (edgeOf t2 c.2) = ⟨(edgeOf t2 c.2).arrow,
          (mapOf t2 c.2).filter fun x => (OMap.find? (mapOf t1 c.1) (-x.1)).isSome⟩ := by
  induction co generalizing del with
  | nil => exact ⟨del, rfl, fun _ _ => rfl, fun _ _ => rfl, by simp⟩
  | cons c co ih =>
    have n1 : c.1 ∉ co.map Prod.fst := (List.nodup_cons.1 hp.nodup1).1
    have n2 : c.2 ∉ co.map Prod.snd := (List.nodup_cons.1 hp.nodup2).1
    have hc1 := hp.sub1 c List.mem_cons_self
    have hc2 := hp.sub2 c List.mem_cons_self
    obtain ⟨e1, a1, b1, c1⟩ := deleteUnused_spec (mapOf_sorted' h1 _ hc1)
      (fun hf => hj.arrows hf c List.mem_cons_self) (hj.dims c List.mem_cons_self)
      (hd1 c.1 (by simp))
    obtain ⟨e2, a2, b2, c2⟩ := deleteUnused_spec (mapOf_sorted' h2 _ hc2)
      (fun hf => (hj.arrows hf c List.mem_cons_self).symm) (fun s d1 d2 x y =>
        (hj.dims c List.mem_cons_self (-s) d2 d1 y (by rw [neg_neg]; exact x)).symm)
      (hd2 c.2 (by simp))
    have hstep : deletePair t1 t2 del c = .ok (e1, e2) := by
      unfold deletePair
      rw [edgeAt_eq h1 hc1, edgeAt_eq h2 hc2]
      dsimp only [Outcome.bind]
      rw [a1]
      dsimp only [Outcome.bind]
      rw [a2]
    have hp' : Pairs t1.names t2.names co := {
      nodup1 := (List.nodup_cons.1 hp.nodup1).2
      nodup2 := (List.nodup_cons.1 hp.nodup2).2
      sub1 := fun c hc => hp.sub1 c (List.mem_cons_of_mem _ hc)
      sub2 := fun c hc => hp.sub2 c (List.mem_cons_of_mem _ hc) }
    have hj' : Joined t1 t2 co := ⟨fun hf c hc => hj.arrows hf c (List.mem_cons_of_mem _ hc),
      fun c hc => hj.dims c (List.mem_cons_of_mem _ hc)⟩
    have hne1 : ∀ n ∈ co.map Prod.fst, n ≠ c.1 := fun n hn h => n1 (h ▸ hn)
    have hne2 : ∀ n ∈ co.map Prod.snd, n ≠ c.2 := fun n hn h => n2 (h ▸ hn)
    obtain ⟨d, hd, k1, k2, k3⟩ := ih hp' hj' (e1, e2)
      (fun n hn => by rw [b1 n (hne1 n hn)]; exact hd1 n (List.mem_cons_of_mem _ hn))
      (fun n hn => by rw [b2 n (hne2 n hn)]; exact hd2 n (List.mem_cons_of_mem _ hn))
    refine ⟨d, by rw [List.foldlM_cons, hstep]; exact hd, fun n hn => ?_, fun n hn => ?_, fun x hx => ?_⟩
    · rw [List.map_cons, List.mem_cons, not_or] at hn
      rw [k1 n hn.2, b1 n hn.1]
    · rw [List.map_cons, List.mem_cons, not_or] at hn
      rw [k2 n hn.2, b2 n hn.1]
    · rcases List.mem_cons.1 hx with rfl | hx
      · exact ⟨(cutEdge_congr (k1 _ n1) _).trans c1, (cutEdge_congr (k2 _ n2) _).trans c2⟩
      · exact k3 x hx

theorem edgeBeforeSplit_zip (cut : List (ν × List (σ × ℕ))) {t : Tensor ν σ α} (h : Shaped t) :
    edgeBeforeSplit cut t.names t.core.edges = t.names.map fun n => cutEdge cut n (edgeOf t n) := by
  conv_lhs => rw [edges_named' h]
  unfold edgeBeforeSplit
  split
  · rename_i hc
    refine List.map_congr_left fun n _ => ?_
    have : cut = [] := by simpa using hc
    rw [this]
    rfl
  · rw [List.zipWith_map_right, List.zipWith_self]

/-- The cuts leave exactly the symmetries whose opposites the partners have. -/
theorem deletePairs_restrict (h1 : Shaped t1) (h2 : Shaped t2) {co : List (ν × ν)}
    (hp : Pairs t1.names t2.names co) (hj : Joined t1 t2 co) :
    ∃ d, co.foldlM (deletePair t1 t2) ([], []) = .ok d ∧
      edgeBeforeSplit d.1 t1.names t1.core.edges = (restrictBy (shared1 t2 co) t1).core.edges ∧
      edgeBeforeSplit d.2 t2.names t2.core.edges = (restrictBy (shared2 t1 co) t2).core.edges := by
  obtain ⟨d, hd, k1, k2, k3⟩ := deletePairs_cut h1 h2 co hp hj ([], []) (fun _ _ => rfl) (fun _ _ => rfl)
  refine ⟨d, hd, ?_, ?_⟩
  · rw [edgeBeforeSplit_zip _ h1, restrictBy_edges h1]
    refine List.map_congr_left fun n hn => ?_
    by_cases hc : n ∈ co.map Prod.fst
    · obtain ⟨c, hcc, rfl⟩ := List.mem_map.1 hc
      rw [(k3 c hcc).1]
      simp only [shared1_common hp.nodup1 hcc]
    · rw [cutEdge_congr (k1 n hc)]
      simp only [shared1_free hc, List.filter_true]
      rfl
  · rw [edgeBeforeSplit_zip _ h2, restrictBy_edges h2]
    refine List.map_congr_left fun n hn => ?_
    by_cases hc : n ∈ co.map Prod.snd
    · obtain ⟨c, hcc, rfl⟩ := List.mem_map.1 hc
      rw [(k3 c hcc).2]
      simp only [shared2_common hp.nodup2 hcc]
    · rw [cutEdge_congr (k2 n hc)]
      simp only [shared2_free hc, List.filter_true]
      rfl

/-! ## the restricted tensors -/

theorem matched_restrict (h1 : Shaped t1) (h2 : Shaped t2) {cs : List (ν × ν)}
    (hp : Pairs t1.names t2.names cs) (hj : Joined t1 t2 cs) :
    Matched (restrictBy (shared1 t2 cs) t1) (restrictBy (shared2 t1 cs) t2) cs where
  arrows := by
    intro hf c hc
    rw [restrictBy_edgeOf h1 (hp.sub1 c hc), restrictBy_edgeOf h2 (hp.sub2 c hc)]
    exact hj.arrows hf c hc
  maps := by
    intro c hc s
    rw [restrictBy_mapOf h1 (hp.sub1 c hc), restrictBy_mapOf h2 (hp.sub2 c hc),
      OMap.find?_filter_key _ (shared1 t2 cs c.1), OMap.find?_filter_key _ (shared2 t1 cs c.2),
      shared1_common hp.nodup1 hc, shared2_common hp.nodup2 hc, neg_neg]
    cases ha : OMap.find? (mapOf t1 c.1) s with
    | none => simp
    | some d1 =>
      cases hb : OMap.find? (mapOf t2 c.2) (-s) with
      | none => simp
      | some d2 => simp [hj.dims c hc s d1 d2 ha hb]

theorem reversedNames_restrict {keep : ν → σ → Bool} {t : Tensor ν σ α} (h : Shaped t) (free : List ν)
    (out : Bool) : reversedNames free out (restrictBy keep t) = reversedNames free out t := by
  have h' := restrictBy_shaped (keep := keep) h
  unfold reversedNames
  split
  · rw [zip_named' h', zip_named' h, List.filter_map, List.filter_map, List.map_map, List.map_map,
      restrictBy_names]
    have : ∀ l : List ν, (∀ n ∈ l, n ∈ t.names) → l.filter ((fun x : ν × Edge σ =>
          if x.1 ∈ free then x.2.arrow else decide (x.2.arrow = out)) ∘
          fun n => (n, edgeOf (restrictBy keep t) n)) =
        l.filter ((fun x : ν × Edge σ =>
          if x.1 ∈ free then x.2.arrow else decide (x.2.arrow = out)) ∘ fun n => (n, edgeOf t n)) := by
      intro l hl
      refine List.filter_congr fun n hn => ?_
      simp only [Function.comp, restrictBy_edgeOf h (hl n hn)]
    rw [this _ fun _ h => h]
    rfl
  · rfl

theorem reversedFree_restrict {keep : ν → σ → Bool} {t : Tensor ν σ α} (h : Shaped t) (free : List ν) :
    reversedFree free (restrictBy keep t) = reversedFree free t := by
  have h' := restrictBy_shaped (keep := keep) h
  unfold reversedFree
  split
  · rw [zip_named' h', zip_named' h, List.filter_map, List.filter_map, List.map_map, List.map_map,
      restrictBy_names]
    have : ∀ l : List ν, (∀ n ∈ l, n ∈ t.names) → l.filter ((fun x : ν × Edge σ =>
          decide (x.1 ∈ free) && x.2.arrow) ∘ fun n => (n, edgeOf (restrictBy keep t) n)) =
        l.filter ((fun x : ν × Edge σ => decide (x.1 ∈ free) && x.2.arrow) ∘
          fun n => (n, edgeOf t n)) := by
      intro l hl
      refine List.filter_congr fun n hn => ?_
      simp only [Function.comp, restrictBy_edgeOf h (hl n hn)]
    rw [this _ fun _ h => h]
    rfl
  · rfl

theorem splitParts_restrict {keep : ν → σ → Bool} {t : Tensor ν σ α} (h : Shaped t) {K : List ν}
    (hk : ∀ n, n ∉ K → ∀ s, keep n s = true) :
    splitParts (others t.names K) (restrictBy keep t) = splitParts (others t.names K) t := by
  have := splitParts_eq (restrictBy_shaped (keep := keep) h) K
  rw [restrictBy_names] at this
  rw [this, splitParts_eq h]
  refine List.map_congr_left fun n hn => ?_
  obtain ⟨hn1, hn2⟩ := mem_others.1 hn
  have : mapOf (restrictBy keep t) n = mapOf t n := by
    unfold mapOf
    rw [restrictBy_edgeOf_keep h hn1 (hk n hn2)]
  rw [this]

theorem edgeOperator_uncut [Neg α] [Zero α] (env : Env σ α) {t : Tensor ν σ α} {a : EdgeArgs ν σ}
    (hm : a.merge ≠ []) (hcut : edgeBeforeSplit a.cut t.names t.core.edges = t.core.edges) :
    edgeOperator env t a = edgeOperator env t { a with cut := [] } := by
  have hm' : a.merge.isEmpty = false := by simpa using hm
  unfold edgeOperator
  have hE : edgeBeforeSplit ([] : List (ν × List (σ × ℕ))) t.names t.core.edges = t.core.edges := rfl
  dsimp only
  rw [hcut, hE]
  simp only [hm', Bool.and_false, Bool.false_and, Bool.false_eq_true, if_false]

/-- Contraction of fermions is contraction of the tensors without the symmetries the partners lack, if
each tensor has edges to reverse or nothing to leave out. -/
theorem contractWithoutFuse_restrict [CommRing α] (g : Gemm α) (env1 env2 env3 : Env σ α)
    (junk : List σ → ℕ → α) {cn : ContractNames ν} (hcn : cn.c1 ≠ cn.c2)
    (h1 : Shaped t1) (h2 : Shaped t2) (hf : TatSym.isFermi σ = true) {pairs : List (ν × ν)}
    (hdup : duplicated (keepPairs t1.names t2.names pairs) = false)
    {cs : List (ν × ν)} (hcs : keepPairs t1.names t2.names pairs = cs) (hj : Joined t1 t2 cs)
    (r1 : restrictBy (shared1 t2 cs) t1 = t1 ∨
      reversedNames (others t1.names (cs.map Prod.fst)) false t1 ≠ [])
    (r2 : restrictBy (shared2 t1 cs) t2 = t2 ∨
      reversedNames (others t2.names (cs.map Prod.snd)) true t2 ≠ []) :
    contractWithoutFuse g env1 env2 env3 junk cn t1 t2 pairs =
      contractWithoutFuse g env1 env2 env3 junk cn (restrictBy (shared1 t2 cs) t1)
        (restrictBy (shared2 t1 cs) t2) pairs := by
  have hp0 := pairs_keep hdup
  rw [hcs] at hp0
  have s1 := restrictBy_shaped (keep := shared1 t2 cs) h1
  have s2 := restrictBy_shaped (keep := shared2 t1 cs) h2
  unfold contractWithoutFuse
  dsimp only
  rw [restrictBy_names, restrictBy_names, hcs]
  rw [hcs] at hdup
  rw [if_neg (by rw [hdup]; simp), if_neg (by rw [hdup]; simp), free1_eq, free2_eq]
  generalize hsch : scheme cs t1.names t2.names (others t1.names (cs.map Prod.fst))
    (others t2.names (cs.map Prod.snd)) = sch
  have hperm : sch.common.Perm cs := by rw [← hsch]; exact scheme_perm h1.nodup h2.nodup hp0 _ _
  generalize hco : sch.common = co at hperm
  have hp := hp0.perm hperm
  have hjo := hj.perm hperm
  have hm' := matched_restrict h1 h2 hp hjo
  rw [← shared1_perm hperm] at r1 s1
  rw [← shared2_perm hperm] at r2 s2
  rw [← shared1_perm hperm, ← shared2_perm hperm]
  rw [deletePairs_nil s1 s2 hp hm']
  obtain ⟨d, hd, e1, e2⟩ := deletePairs_restrict h1 h2 hp hjo
  rw [hd]
  dsimp only [Outcome.bind]
  rw [reversedNames_restrict h1, reversedNames_restrict h2, reversedFree_restrict h1,
    reversedFree_restrict h2, splitParts_restrict h1 (fun n hn s => ?_),
    splitParts_restrict h2 (fun n hn s => ?_)]
  rotate_left
  · exact shared2_free (fun h => hn ((hperm.map Prod.snd).mem_iff.1 h)) s
  · exact shared1_free (fun h => hn ((hperm.map Prod.fst).mem_iff.1 h)) s
  have o1 := others_congr (names := t1.names) (hperm.map Prod.fst)
  have o2 := others_congr (names := t2.names) (hperm.map Prod.snd)
  have q1 : edgeOperator env1 t1 (mergeArgs1 cn (reversedNames (others t1.names (cs.map Prod.fst)) false t1)
        (others t1.names (cs.map Prod.fst)) (co.map Prod.fst) sch.right1 d.1) =
      edgeOperator env1 (restrictBy (shared1 t2 co) t1) (mergeArgs1 cn
        (reversedNames (others t1.names (cs.map Prod.fst)) false t1)
        (others t1.names (cs.map Prod.fst)) (co.map Prod.fst) sch.right1 []) := by
    have hm : (mergeArgs1 cn (reversedNames (others t1.names (cs.map Prod.fst)) false t1)
        (others t1.names (cs.map Prod.fst)) (co.map Prod.fst) sch.right1 d.1).merge ≠ [] :=
      ofList_two_ne _ _
    rcases r1 with r1 | r1
    · rw [r1] at e1 ⊢
      exact edgeOperator_uncut env1 hm e1
    · refine edgeOperator_restrict env1 h1 hm hf r1 ?_ e1
      rw [← o1]
      exact gather1 s1 hcn _ sch.right1 (hp.split1 h1.nodup)
  have q2 : edgeOperator env2 t2 (mergeArgs2 cn (reversedNames (others t2.names (cs.map Prod.snd)) true t2)
        (others t2.names (cs.map Prod.snd)) (co.map Prod.snd) sch.right2 d.2) =
      edgeOperator env2 (restrictBy (shared2 t1 co) t2) (mergeArgs2 cn
        (reversedNames (others t2.names (cs.map Prod.snd)) true t2)
        (others t2.names (cs.map Prod.snd)) (co.map Prod.snd) sch.right2 []) := by
    have hm : (mergeArgs2 cn (reversedNames (others t2.names (cs.map Prod.snd)) true t2)
        (others t2.names (cs.map Prod.snd)) (co.map Prod.snd) sch.right2 d.2).merge ≠ [] :=
      ofList_two_ne _ _
    rcases r2 with r2 | r2
    · rw [r2] at e2 ⊢
      exact edgeOperator_uncut env2 hm e2
    · refine edgeOperator_restrict env2 h2 hm hf r2 ?_ e2
      rw [← o2]
      exact gather2 s2 hcn _ sch.right2 (hp.split2 h2.nodup)
  rw [q1, q2]

/-! ## elements -/

omit [TatSym σ] in
theorem sumOver_filter {β : Type} [AddCommMonoid α] (E : ν → List β) (q : ν → β → Bool)
    (F : (ν → β) → α) {ns : List ν} (hn : ns.Nodup) (w : ν → β) :
    sumOver (fun n => (E n).filter (q n)) F ns w =
      sumOver E (fun w => if ∀ n ∈ ns, q n (w n) = true then F w else 0) ns w := by
  induction ns generalizing w with
  | nil => simp [sumOver]
  | cons n ns ih =>
    obtain ⟨hn1, hn2⟩ := List.nodup_cons.1 hn
    unfold sumOver
    have hstep : ∀ l : List β,
        ((l.filter (q n)).map fun x => sumOver (fun n => (E n).filter (q n)) F ns
          (Function.update w n x)).sum =
        (l.map fun x => sumOver E (fun w => if ∀ m ∈ n :: ns, q m (w m) = true then F w else 0) ns
          (Function.update w n x)).sum := by
      intro l
      induction l with
      | nil => rfl
      | cons x l ihl =>
        rw [List.filter_cons]
        by_cases hq : q n x = true
        · rw [if_pos hq, List.map_cons, List.sum_cons, List.map_cons, List.sum_cons, ihl, ih hn2]
          congr 1
          refine sumOver_congr hn2 fun w' _ hw' => ?_
          have hx : w' n = x := by rw [hw' n hn1]; simp
          simp [hx, hq]
        · rw [if_neg hq, List.map_cons, List.sum_cons, ihl]
          rw [sumOver_zero hn2 fun w' _ hw' => ?_, zero_add]
          have hx : w' n = x := by rw [hw' n hn1]; simp
          rw [if_neg]
          intro h
          have := h n List.mem_cons_self
          rw [hx] at this
          exact hq this
    exact hstep (E n)

omit [LinearOrder ν] [TatSym σ] in
theorem edgePositions_filter (q : σ → Bool) (m : List (σ × ℕ)) :
    edgePositions (m.filter fun x => q x.1) = (edgePositions m).filter fun x => q x.1 := by
  unfold edgePositions
  induction m with
  | nil => rfl
  | cons x m ih =>
    rw [List.filter_cons, List.flatMap_cons, List.filter_append, ← ih, List.filter_map]
    by_cases hq : q x.1 = true
    · rw [if_pos hq, List.flatMap_cons]
      congr 1
      rw [List.filter_eq_self.2 (by simp [hq])]
    · rw [if_neg hq]
      have : ∀ l : List ℕ, l.filter ((fun y : σ × ℕ => q y.1) ∘ fun i => (x.1, i)) = [] :=
        fun l => List.filter_eq_nil_iff.2 (by simp [hq])
      rw [this]
      rfl

/-- The contracted elements are the same without the symmetries the partners lack. -/
theorem contracted_restrict [CommRing α] (h1 : Shaped t1) (h2 : Shaped t2) {cs : List (ν × ν)}
    (hp : Pairs t1.names t2.names cs) (p : ν → σ × ℕ) :
    contracted (restrictBy (shared1 t2 cs) t1) (restrictBy (shared2 t1 cs) t2) cs p =
      contracted t1 t2 cs p := by
  have hin : ∀ n ∈ cs.map Prod.fst, n ∈ t1.names := by
    intro n hn
    obtain ⟨c, hc, rfl⟩ := List.mem_map.1 hn
    exact hp.sub1 c hc
  have hE : ∀ (F : (ν → σ × ℕ) → α) (ns : List ν) (w : ν → σ × ℕ), (∀ n ∈ ns, n ∈ t1.names) →
      sumOver (fun n => edgePositions (mapOf (restrictBy (shared1 t2 cs) t1) n)) F ns w =
      sumOver (fun n => (edgePositions (mapOf t1 n)).filter fun x => shared1 t2 cs n x.1) F ns w := by
    intro F ns
    induction ns with
    | nil => intro w _; rfl
    | cons n ns ih =>
      intro w hns
      unfold sumOver
      rw [restrictBy_mapOf h1 (hns n List.mem_cons_self), edgePositions_filter (shared1 t2 cs n)]
      congr 1
      exact List.map_congr_left fun x _ => ih _ fun m hm => hns m (List.mem_cons_of_mem _ hm)
  unfold contracted
  rw [hE _ _ _ hin, sumOver_filter _ (fun n (x : σ × ℕ) => shared1 t2 cs n x.1) _ hp.nodup1]
  refine sumOver_congr hp.nodup1 fun w hw hwp => ?_
  have hsign : contractSign (restrictBy (shared1 t2 cs) t1) (restrictBy (shared2 t1 cs) t2) cs w
      (partner cs p w) = contractSign t1 t2 cs w (partner cs p w) := by
    unfold contractSign
    rw [restrictBy_names, restrictBy_names]
    split
    · congr 2
      refine List.map_congr_left fun c hc => ?_
      simp only [restrictBy_edgeOf h1 (hp.sub1 c hc)]
    · rfl
  split
  · rename_i hk
    have a1 : amp (restrictBy (shared1 t2 cs) t1) w = amp t1 w := by
      rw [restrictBy_amp h1, if_pos]
      intro n _
      by_cases hn : n ∈ cs.map Prod.fst
      · exact hk n hn
      · exact shared1_free hn _
    have a2 : amp (restrictBy (shared2 t1 cs) t2) (partner cs p w) = amp t2 (partner cs p w) := by
      rw [restrictBy_amp h2, if_pos]
      intro n _
      by_cases hn : n ∈ cs.map Prod.snd
      · obtain ⟨c, hc, rfl⟩ := List.mem_map.1 hn
        have := hw c.1 (List.mem_map_of_mem hc)
        rw [mem_edgePositions (mapOf_sorted' h1 _ (hp.sub1 c hc))] at this
        rw [shared2_common hp.nodup2 hc, partner_common hp.nodup2 p w hc]
        dsimp only
        rw [neg_neg]
        unfold dimM at this
        cases ho : OMap.find? (mapOf t1 c.1) (w c.1).1 with
        | none => rw [ho] at this; simp at this
        | some d => rfl
      · exact shared2_free hn _
    rw [a1, a2, hsign]
  · rename_i hk
    push Not at hk
    obtain ⟨n, hn, hk⟩ := hk
    obtain ⟨c, hc, rfl⟩ := List.mem_map.1 hn
    rw [shared1_common hp.nodup1 hc] at hk
    rw [amp_zero' h2 (p := partner cs p w), mul_zero, smul_zero]
    intro hv
    rw [validPos_iff' h2] at hv
    have := hv.1 c.2 (hp.sub2 c hc)
    rw [partner_common hp.nodup2 p w hc] at this
    unfold dimM at this
    dsimp only at this
    cases ho : OMap.find? (mapOf t2 c.2) (-(w c.1).1) with
    | none => rw [ho] at this; simp at this
    | some d => rw [ho] at hk; simp at hk

end

end TAT
