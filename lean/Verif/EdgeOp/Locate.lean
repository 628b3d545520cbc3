import Verif.EdgeOp.Plan

/-!
# Tables from fine symmetries to coarse blocks
-/

namespace TAT

variable {ν σ α : Type}

theorem flagsFrom_ge {β : Type} (k : ℕ) (l : List (List β)) : ∀ y ∈ flagsFrom k l, k ≤ y := by
  induction l generalizing k with
  | nil => simp [flagsFrom]
  | cons a l ih =>
    intro y hy
    rw [flagsFrom, List.mem_append] at hy
    rcases hy with hy | hy
    · rw [List.eq_of_mem_replicate hy]
    · have := ih (k + 1) y hy; omega

theorem zip_flags_cons {β γ : Type} (f : β → γ) (k : ℕ) (g : List β) (gs : List (List β)) :
    (flagsFrom k (g :: gs)).zip ((g :: gs).flatten.map f) =
      (g.map fun x => (k, f x)) ++ (flagsFrom (k + 1) gs).zip (gs.flatten.map f) := by
  rw [flagsFrom, List.flatten_cons, List.map_append, List.zip_append (by simp)]
  congr 1
  apply List.ext_getElem <;> simp

/-- Scanning the flags for group `k` yields exactly the members of the group. -/
theorem takeWhile_flags {β γ : Type} (f : β → γ) (k : ℕ) (g : List β) (gs : List (List β)) :
    (((flagsFrom k (g :: gs)).zip ((g :: gs).flatten.map f)).takeWhile fun x => x.1 == k) =
      (g.map fun x => (k, f x)) ∧
    (((flagsFrom k (g :: gs)).zip ((g :: gs).flatten.map f)).dropWhile fun x => x.1 == k) =
      (flagsFrom (k + 1) gs).zip (gs.flatten.map f) := by
  rw [zip_flags_cons]
  have hge : ∀ x ∈ (flagsFrom (k + 1) gs).zip (gs.flatten.map f), k < x.1 := by
    intro x hx
    have : x.1 ∈ flagsFrom (k + 1) gs := (List.of_mem_zip (a := x.1) (b := x.2) hx).1
    exact flagsFrom_ge (k + 1) gs _ this
  generalize (flagsFrom (k + 1) gs).zip (gs.flatten.map f) = R at hge
  induction g with
  | nil =>
    cases R with
    | nil => exact ⟨rfl, rfl⟩
    | cons y R =>
      have : k < y.1 := hge y (by simp)
      have : (y.1 == k) = false := by simp; omega
      simp [this]
  | cons x g ih =>
    simp only [List.map_cons, List.cons_append, List.takeWhile_cons, List.dropWhile_cons, beq_self_eq_true,
      if_true]
    exact ⟨by rw [ih.1], ih.2⟩

section locate
variable [TatSym σ]

/-- Symmetry and offset of one group. -/
def groupEntry (offset : List (List (List σ × (σ × ℕ)))) (k : ℕ) (syms : List σ) : Option (σ × ℕ) :=
  match syms with
  | [s] => some (s, 0)
  | _ => OMap.find? (offset.getD k []) syms

theorem locate_cons (offset : List (List (List σ × (σ × ℕ)))) (k : ℕ) (g : List ν)
    (gs : List (List ν)) (p : ν → σ × ℕ) :
    locate offset (g :: gs).length k ((flagsFrom k (g :: gs)).zip (keyOf (g :: gs).flatten p)) =
      (groupEntry offset k (keyOf g p)).bind fun so =>
        (locate offset gs.length (k + 1) ((flagsFrom (k + 1) gs).zip (keyOf gs.flatten p))).map
          fun r => (so.1 :: r.1, so.2 :: r.2) := by
  obtain ⟨h1, h2⟩ := takeWhile_flags (fun n => (p n).1) k g gs
  rw [List.length_cons, locate]
  unfold keyOf
  rw [h1, h2]
  have : (g.map fun x => (k, (p x).1)).map Prod.snd = g.map fun n => (p n).1 := by
    rw [List.map_map]; rfl
  simp only [this]
  generalize g.map (fun n => (p n).1) = syms
  unfold groupEntry
  match syms with
  | [] => dsimp only; cases OMap.find? (offset.getD k []) [] <;> rfl
  | [s] => rfl
  | a :: b :: l => dsimp only; cases OMap.find? (offset.getD k []) (a :: b :: l) <;> rfl

theorem locate_some (offset : List (List (List σ × (σ × ℕ)))) (k : ℕ) (groups : List (List ν))
    (p : ν → σ × ℕ) (val : List ν → σ × ℕ)
    (h : ∀ x ∈ groups.zipIdx k, groupEntry offset x.2 (keyOf x.1 p) = some (val x.1)) :
    locate offset groups.length k ((flagsFrom k groups).zip (keyOf groups.flatten p)) =
      some (groups.map fun g => (val g).1, groups.map fun g => (val g).2) := by
  induction groups generalizing k with
  | nil => rfl
  | cons g gs ih =>
    rw [List.zipIdx_cons] at h
    rw [locate_cons, h (g, k) (by simp), ih (k + 1) fun x hx => h x (by simp [hx])]
    rfl

theorem locate_none (offset : List (List (List σ × (σ × ℕ)))) (k : ℕ) (groups : List (List ν))
    (p : ν → σ × ℕ)
    (h : ∃ x ∈ groups.zipIdx k, groupEntry offset x.2 (keyOf x.1 p) = none) :
    locate offset groups.length k ((flagsFrom k groups).zip (keyOf groups.flatten p)) = none := by
  induction groups generalizing k with
  | nil => obtain ⟨x, hx, _⟩ := h; simp at hx
  | cons g gs ih =>
    rw [locate_cons]
    obtain ⟨x, hx, hn⟩ := h
    rw [List.zipIdx_cons] at hx
    rcases List.mem_cons.1 hx with rfl | hx
    · rw [hn]; rfl
    · rw [ih (k + 1) ⟨x, hx, hn⟩]
      cases groupEntry offset k (keyOf g p) <;> rfl

theorem locateStep_fold (offset : List (List (List σ × (σ × ℕ)))) (rank : ℕ) (flag : List ℕ)
    (l : List (List σ × ℕ)) (acc : List (List σ × (List σ × List ℕ))) (hs : OMap.Sorted acc) :
    OMap.Sorted (l.foldl (locateStep offset rank flag) acc) ∧
    ∀ k, OMap.find? (l.foldl (locateStep offset rank flag) acc) k =
      if k ∈ l.map Prod.fst then (locate offset rank 0 (flag.zip k)).or (OMap.find? acc k)
      else OMap.find? acc k := by
  induction l generalizing acc with
  | nil => exact ⟨hs, fun k => by simp⟩
  | cons x l ih =>
    rw [List.foldl_cons]
    cases hx : locate offset rank 0 (flag.zip x.1) with
    | none =>
      have : locateStep offset rank flag acc x = acc := by unfold locateStep; rw [hx]
      rw [this]
      obtain ⟨i1, i2⟩ := ih acc hs
      refine ⟨i1, fun k => ?_⟩
      rw [i2 k, List.map_cons]
      by_cases hk : k = x.1
      · subst hk; simp [hx]
      · have : k ∈ x.1 :: l.map Prod.fst ↔ k ∈ l.map Prod.fst := by
          rw [List.mem_cons]; exact ⟨fun h => h.resolve_left hk, Or.inr⟩
        simp only [this]
    | some r =>
      have : locateStep offset rank flag acc x = OMap.set acc x.1 r := by unfold locateStep; rw [hx]
      rw [this]
      obtain ⟨i1, i2⟩ := ih (OMap.set acc x.1 r) (hs.set _ _)
      refine ⟨i1, fun k => ?_⟩
      rw [i2 k, OMap.find?_set, List.map_cons]
      by_cases hk : k = x.1
      · subst hk; simp [hx]
      · have : k ∈ x.1 :: l.map Prod.fst ↔ k ∈ l.map Prod.fst := by
          rw [List.mem_cons]; exact ⟨fun h => h.resolve_left hk, Or.inr⟩
        simp only [this, if_neg hk]

theorem locateBlocks_fold {α : Type} (rank : ℕ) (l : List (List σ × List α))
    (acc : List (List σ × (List σ × List ℕ))) (hs : OMap.Sorted acc) :
    OMap.Sorted (l.foldl (fun m b => OMap.set m b.1 (b.1, List.replicate rank 0)) acc) ∧
    ∀ k, OMap.find? (l.foldl (fun m b => OMap.set m b.1 (b.1, List.replicate rank 0)) acc) k =
      if k ∈ OMap.keys l then some (k, List.replicate rank 0) else OMap.find? acc k := by
  induction l generalizing acc with
  | nil => exact ⟨hs, fun k => by simp [OMap.keys]⟩
  | cons x l ih =>
    rw [List.foldl_cons]
    obtain ⟨i1, i2⟩ := ih (OMap.set acc x.1 (x.1, List.replicate rank 0)) (hs.set _ _)
    refine ⟨i1, fun k => ?_⟩
    rw [i2 k, OMap.find?_set, OMap.keys_cons]
    by_cases hk : k = x.1
    · subst hk; simp
    · simp [hk]

/-- A choice of symmetries for all fine names: every one exists in its edge and the total is zero. -/
def KeyOk (fm : ν → List (σ × ℕ)) (names : List ν) (p : ν → σ × ℕ) : Prop :=
  (∀ n ∈ names, (p n).1 ∈ OMap.keys (fm n)) ∧ (keyOf names p).sum = 0

omit [TatSym σ] in
theorem forall2_map_self {β γ : Type} {R : γ → β → Prop} (l : List ν) (f : ν → γ) (g : ν → β) :
    List.Forall₂ R (l.map f) (l.map g) ↔ ∀ n ∈ l, R (f n) (g n) := by
  induction l with
  | nil => simp
  | cons x l ih => simp [ih]

/-- Where a fine position starts inside its coarse block. -/
def startOf (fm : ν → List (σ × ℕ)) (groups : List (List ν)) (p : ν → σ × ℕ) : List ℕ :=
  groups.map fun g => mergeOffset (g.map fm) (keyOf g p)

/-- `tbl` maps exactly the fine symmetries satisfying `ok` to coarse symmetries and offsets. -/
structure IsTable (fm : ν → List (σ × ℕ)) (groups : List (List ν)) (ok : (ν → σ × ℕ) → Prop)
    (tbl : List (List σ × (List σ × List ℕ))) : Prop where
  sorted : OMap.Sorted tbl
  mem : ∀ e ∈ tbl, ∃ p, KeyOk fm groups.flatten p ∧ ok p ∧
    e = (keyOf groups.flatten p, (coarseKey groups p, startOf fm groups p))
  find : ∀ p, KeyOk fm groups.flatten p → ok p → OMap.find? tbl (keyOf groups.flatten p) =
    some (coarseKey groups p, startOf fm groups p)

/-- Every list of symmetries over distinct names is given by a position. -/
theorem exists_pos [LinearOrder ν] {names : List ν} (hn : names.Nodup) {k : List σ} (hl : k.length = names.length) :
    ∃ p : ν → σ × ℕ, keyOf names p = k := by
  refine ⟨fun n => (k.getD (names.idxOf n) 0, 0), ?_⟩
  unfold keyOf
  apply List.ext_getElem
  · simp [hl]
  · intro i h1 h2
    simp only [List.getElem_map]
    rw [hn.idxOf_getElem i (by omega), List.getD_eq_getElem _ _ h2]

theorem mem_blocks_iff {fm : ν → List (σ × ℕ)} {names : List ν} {p : ν → σ × ℕ} :
    keyOf names p ∈ (blockShapes (names.map fm)).map Prod.fst ↔ KeyOk fm names p := by
  have := mem_blockShapes_keys (edges := names.map fun n => (⟨false, fm n⟩ : Edge σ))
    (k := keyOf names p)
  rw [List.map_map] at this
  have e : (Edge.map ∘ fun n => (⟨false, fm n⟩ : Edge σ)) = fm := rfl
  rw [e] at this
  rw [this]
  unfold KeyOk
  refine and_congr_left fun _ => ?_
  unfold keyOf
  rw [forall2_map_self]

theorem mem_blocks_length {maps : List (List (σ × ℕ))} {k : List σ}
    (h : k ∈ (blockShapes maps).map Prod.fst) : k.length = maps.length := by
  obtain ⟨b, hb, rfl⟩ := List.mem_map.1 h
  obtain ⟨c, h1, _, rfl⟩ := mem_blockShapes.1 hb
  simp [h1.length_eq]

/-- The table built from offset tables. -/
theorem locateAll_table [LinearOrder ν] {fm : ν → List (σ × ℕ)} {groups : List (List ν)}
    (hn : groups.flatten.Nodup) (offset : List (List (List σ × (σ × ℕ)))) (edges : List (Edge σ))
    (hedges : edges.map Edge.map = groups.flatten.map fm) (ok : (ν → σ × ℕ) → Prop)
    (hyes : ∀ p, KeyOk fm groups.flatten p → ok p → ∀ x ∈ groups.zipIdx 0,
      groupEntry offset x.2 (keyOf x.1 p) =
        some ((keyOf x.1 p).sum, mergeOffset (x.1.map fm) (keyOf x.1 p)))
    (hno : ∀ p, KeyOk fm groups.flatten p → ¬ ok p → ∃ x ∈ groups.zipIdx 0,
      groupEntry offset x.2 (keyOf x.1 p) = none) :
    IsTable fm groups ok (locateAll offset groups.length (flagsOf groups) edges) := by
  obtain ⟨h1, h2⟩ := locateStep_fold offset groups.length (flagsOf groups) (initBlocks edges) []
    (by simp [OMap.Sorted])
  rw [initBlocks_eq, hedges] at h1 h2
  have hfind : ∀ p, KeyOk fm groups.flatten p → ok p → OMap.find?
      (locateAll offset groups.length (flagsOf groups) edges) (keyOf groups.flatten p) =
        some (coarseKey groups p, startOf fm groups p) := by
    intro p hp hok
    unfold locateAll
    rw [initBlocks_eq, hedges, h2, if_pos (mem_blocks_iff.2 hp)]
    rw [flagsOf, locate_some offset 0 groups p
      (fun g => ((keyOf g p).sum, mergeOffset (g.map fm) (keyOf g p))) (hyes p hp hok)]
    rfl
  refine ⟨by unfold locateAll; rw [initBlocks_eq, hedges]; exact h1, ?_, hfind⟩
  intro e he
  have hf := OMap.find?_of_mem (m := locateAll offset groups.length (flagsOf groups) edges)
    (k := e.1) (v := e.2) (by
      apply OMap.Sorted.nodup; unfold locateAll; rw [initBlocks_eq, hedges]; exact h1) he
  have hk : e.1 ∈ (blockShapes (groups.flatten.map fm)).map Prod.fst := by
    by_contra hk
    unfold locateAll at hf
    rw [initBlocks_eq, hedges, h2, if_neg hk] at hf
    simp [OMap.find?] at hf
  obtain ⟨p, hp⟩ := exists_pos hn (k := e.1) (by rw [mem_blocks_length hk, List.length_map])
  rw [← hp] at hk
  have hko := mem_blocks_iff.1 hk
  by_cases hok : ok p
  · refine ⟨p, hko, hok, ?_⟩
    have := hfind p hko hok
    rw [hp, hf] at this
    exact Prod.ext hp.symm (Option.some.inj this)
  · exfalso
    unfold locateAll at hf
    rw [initBlocks_eq, hedges, h2, ← hp, if_pos hk, flagsOf,
      locate_none offset 0 groups p (hno p hko hok)] at hf
    simp [OMap.find?] at hf

/-- Offset of a group consisting of one edge. -/
theorem mergeOffset_single {m : List (σ × ℕ)} (hm : OMap.Sorted m) (s : σ) :
    mergeOffset [m] [s] = 0 := by
  have hn := combos_keys_nodup (maps := [m]) (by simpa using hm)
  unfold mergeOffset sameTotal
  have hk : ∀ c ∈ combos [m], c.1.sum = [s].sum → c.1 = [s] := by
    intro c hc hs
    have := mem_combos_keys.1 (List.mem_map_of_mem (f := Prod.fst) hc)
    generalize c.1 = k at this hs
    cases this with
    | @cons _ a _ l h1 h2 =>
      cases h2
      simp_all
  have : ∀ l : List (List σ × ℕ), (∀ c ∈ l, c.1 = [s]) → prefixSize l [s] = 0 := by
    intro l hl
    cases l with
    | nil => simp [prefixSize]
    | cons c l =>
      have := hl c (by simp)
      simp [prefixSize, this]
  apply this
  intro c hc
  obtain ⟨h1, h2⟩ := List.mem_filter.1 hc
  exact hk c h1 (by simpa using h2)

omit [TatSym σ] in
theorem flatten_singletons (l : List ν) : (l.map fun n => [n]).flatten = l := by
  induction l with
  | nil => rfl
  | cons x l ih => rw [List.map_cons, List.flatten_cons, ih]; rfl

/-- Without split or merge the table is the identity. -/
theorem locateBlocks_table [LinearOrder ν] {α : Type} {fm : ν → List (σ × ℕ)} {names : List ν}
    (hn : names.Nodup) (hs : ∀ n ∈ names, OMap.Sorted (fm n)) (blocks : List (List σ × List α))
    (hb : ∀ k, k ∈ OMap.keys blocks ↔ k ∈ (blockShapes (names.map fm)).map Prod.fst)
    (ok : (ν → σ × ℕ) → Prop) (hok : ∀ p, KeyOk fm names p → ok p) :
    IsTable fm (names.map fun n => [n]) ok (locateBlocks names.length blocks) := by
  have hfl := flatten_singletons names
  obtain ⟨h1, h2⟩ := locateBlocks_fold names.length blocks [] (by simp [OMap.Sorted])
  have hck : ∀ p : ν → σ × ℕ, coarseKey (names.map fun n => [n]) p = keyOf names p := by
    intro p
    simp [coarseKey, keyOf, Function.comp_def]
  have hst : ∀ p : ν → σ × ℕ, startOf fm (names.map fun n => [n]) p =
      List.replicate names.length 0 := by
    intro p
    unfold startOf
    rw [List.map_map, List.eq_replicate_iff]
    refine ⟨by simp, ?_⟩
    intro b hb
    obtain ⟨n, hn, rfl⟩ := List.mem_map.1 hb
    simp only [Function.comp, List.map_cons, List.map_nil, keyOf]
    exact mergeOffset_single (hs n hn) _
  refine ⟨h1, ?_, ?_⟩
  · intro e he
    have hf := OMap.find?_of_mem (m := locateBlocks names.length blocks) (k := e.1) (v := e.2)
      h1.nodup he
    have hk : e.1 ∈ OMap.keys blocks := by
      by_contra hk
      unfold locateBlocks at hf
      rw [h2, if_neg hk] at hf
      simp [OMap.find?] at hf
    unfold locateBlocks at hf
    rw [h2, if_pos hk] at hf
    rw [hb] at hk
    obtain ⟨p, hp⟩ := exists_pos hn (k := e.1) (by rw [mem_blocks_length hk, List.length_map])
    rw [← hp] at hk
    have hko := mem_blocks_iff.1 hk
    refine ⟨p, by rw [hfl]; exact hko, hok p hko, ?_⟩
    rw [hfl, hck, hst]
    have := (Option.some.inj hf).symm
    rw [hp]
    exact Prod.ext rfl this
  · intro p hp _
    rw [hfl] at hp
    have := (hb _).2 (mem_blocks_iff.2 hp)
    unfold locateBlocks
    rw [hfl, h2, if_pos this, hck, hst]

end locate

end TAT
