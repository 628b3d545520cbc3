import Verif.Shrink.Expand

/-!
# Properties of `shrink` and `expand`

C32 and C33.
-/

namespace TAT

variable {ν σ α : Type}

section
variable [LinearOrder ν] [TatSym σ]

/-- **C32** (partial): `shrink` returns the sub-tensor at the chosen positions.  The names are the new
edge, if there is one, followed by the edges not fixed; every edge is the one of the tensor, up to
symmetries no block has any more; the new edge has dimension one at the total of the chosen
symmetries.  The elements are those of the tensor at the chosen positions, with the fermionic sign
`sliceSign`, which is 1 without fermions.

Missing: fixed edges with more than one symmetry, except for fermionic tensors with an edge whose arrow
is `true` (`hsec`; without fermions the claim is false, see `C32_bosonic_fails`, and likewise for
fermionic tensors all of whose arrows are `false`, see `C32_fermi_fails`).  Tensors without symmetry are covered in full, see `C32_noSymmetry`. -/
theorem C32_shrink_partial [CommRing α] (ce : ContractEnv σ α) (hg : GemmOk ce.gemm)
    (junk : List σ → ℕ → α) {cn : ContractNames ν} (hcn : [cn.c0, cn.c1, cn.c2].Nodup)
    {t : Tensor ν σ α} (h : WF t) (hb : t.core.blocks ≠ []) {cfg : List (ν × (σ × ℕ))}
    (hpos : ∀ n ∈ t.names, ∀ x, chosen cfg n = some x → x.2 < dimM (mapOf t n) x.1)
    (hsec : (∀ n ∈ t.names, ∀ x, chosen cfg n = some x → OMap.keys (mapOf t n) = [x.1]) ∨
      (TatSym.isFermi σ = true ∧ ∃ n ∈ t.names, (edgeOf t n).arrow = true))
    {newName : Option ν} (hnone : newName = none → chosenTotal cfg t.names = 0)
    (hnew : ∀ m ∈ newName, m ∉ t.names) (arrow : Bool) :
    ∃ r, shrink ce junk cn t cfg newName arrow = .ok r ∧
      r.names = newName.toList ++ others t.names (slicedNames cfg t.names) ∧ WF r ∧
      (∃ e : ν → Edge σ, r.core.edges = prunedEdges (r.names.map e) ∧
        (∀ n ∈ others t.names (slicedNames cfg t.names), (e n).map = mapOf t n ∧
          (TatSym.isFermi σ = true → arrowValid (edgeOf t n) = true →
            (e n).arrow = (edgeOf t n).arrow)) ∧
        ∀ m ∈ newName, (e m).map = [(chosenTotal cfg t.names, 1)] ∧
          (TatSym.isFermi σ = true → arrowValid (⟨arrow, [(chosenTotal cfg t.names, 1)]⟩ : Edge σ) →
            (e m).arrow = arrow)) ∧
      ∀ p, FineOk (fun n => if n ∈ t.names then mapOf t n else [(chosenTotal cfg t.names, 1)])
          r.names p →
        ∃ v, elem t (placed cfg t.names p) = some v ∧ elem r p =
          some (sliceSign t (slicedNames cfg t.names ++ newName.toList) (slicedNames cfg t.names)
            (placed cfg t.names p) • v) := by
  have hk : ∀ n ∈ t.names, ∀ x, chosen cfg n = some x → x.1 ∈ OMap.keys (mapOf t n) := by
    intro n hn x hx
    have := hpos n hn x hx
    by_contra hc
    unfold dimM at this
    rw [OMap.find?_eq_none.2 hc] at this
    simp at this
  rw [shrink_eq ce junk cn h hk hnone]
  set S := slicedNames cfg t.names with hSdef
  set l := allSlots t cfg newName arrow with hldef
  have hln : l.map Slot.name = S ++ newName.toList := allSlots_names newName arrow
  have nS : S.Nodup := h.nodup.filter _
  have hnl : (l.map Slot.name).Nodup := by
    rw [hln, List.nodup_append]
    refine ⟨nS, by cases newName <;> simp, ?_⟩
    rintro x hx y hy rfl
    exact hnew x (by simpa using hy) (mem_slicedNames.1 hx).1
  have ml : ∀ s, s ∈ l ↔ (∃ n ∈ S, s = slotOf t cfg n) ∨
      ∃ m ∈ newName, s = ⟨m, arrow, chosenTotal cfg t.names, 0, 1⟩ := by
    intro s
    rw [hldef]
    unfold allSlots
    rw [List.mem_append, List.mem_map, List.mem_map]
    refine or_congr ⟨?_, ?_⟩ ⟨?_, ?_⟩
    · rintro ⟨n, h1, h2⟩; exact ⟨n, h1, h2.symm⟩
    · rintro ⟨n, h1, h2⟩; exact ⟨n, h1, h2.symm⟩
    · rintro ⟨n, h1, h2⟩; exact ⟨n, by simpa using h1, h2.symm⟩
    · rintro ⟨n, h1, h2⟩; exact ⟨n, by simpa using h1, h2.symm⟩
  have h0 : (l.map Slot.sym).sum = 0 := by
    rw [hldef]
    unfold allSlots
    rw [List.map_append, List.sum_append, slots_sum]
    cases hnn : newName with
    | none =>
      have := hnone hnn
      unfold chosenTotal at this
      rw [this]; simp
    | some m =>
      simp only [Option.toList_some, List.map_cons, List.map_nil, List.sum_cons, List.sum_nil,
        add_zero]
      exact neg_add_cancel _
  have hi : ∀ s ∈ l, s.index < s.dim := by
    intro s hs
    rcases (ml s).1 hs with ⟨n, hn, rfl⟩ | ⟨m, _, rfl⟩
    · obtain ⟨h1, x, hx⟩ := mem_slicedNames.1 hn
      have := hpos n h1 x hx
      unfold slotOf
      rw [hx]
      exact this
    · exact Nat.one_pos
  obtain ⟨u, hu, hv⟩ := unitTensor_spec junk l (o := slotOffset l) rfl hnl h0 hi
  rw [hu]
  have hm : ∀ s ∈ l, s.name ∈ t.names → OMap.find? (mapOf t s.name) (-s.sym) = some s.dim ∧
      (TatSym.isFermi σ = true → (edgeOf t s.name).arrow ≠ s.arrow) := by
    intro s hs hst
    rcases (ml s).1 hs with ⟨n, hn, rfl⟩ | ⟨m, hm, rfl⟩
    · obtain ⟨h1, x, hx⟩ := mem_slicedNames.1 hn
      refine ⟨?_, fun _ => by simp [slotOf]⟩
      simp only [slotOf, hx, Option.getD_some, neg_neg, dimM]
      obtain ⟨d, hd⟩ := Option.isSome_iff_exists.1 (OMap.find?_isSome.2 (hk n h1 x hx))
      rw [hd]; rfl
    · exact absurd hst (hnew m hm)
  have hr : (∀ s ∈ l, s.name ∈ t.names → OMap.keys (mapOf t s.name) = [-s.sym]) ∨
      (TatSym.isFermi σ = true ∧ ∃ n ∈ t.names, (edgeOf t n).arrow = true) := by
    refine hsec.imp (fun hsec s hs hst => ?_) id
    rcases (ml s).1 hs with ⟨n, hn, rfl⟩ | ⟨m, hm, rfl⟩
    · obtain ⟨h1, x, hx⟩ := mem_slicedNames.1 hn
      simp only [slotOf, hx, Option.getD_some, neg_neg]
      exact hsec n h1 x hx
    · exact absurd hst (hnew m hm)
  have hS : S = t.names.filter fun n => decide (n ∈ l.map Slot.name) := by
    rw [hSdef]
    unfold slicedNames
    refine List.filter_congr fun n hn => ?_
    rw [hln, Bool.eq_iff_iff, decide_eq_true_iff, List.mem_append, mem_slicedNames,
      Option.isSome_iff_exists]
    constructor
    · exact fun h => Or.inl ⟨hn, h⟩
    · rintro (h | h)
      · exact h.2
      · exact absurd hn (hnew n (by simpa using h))
  have o1 : others (l.map Slot.name) t.names = newName.toList := by
    rw [hln]
    unfold others
    rw [List.filter_append, List.filter_eq_nil_iff.2, List.filter_eq_self.2, List.nil_append]
    · intro m hm; exact decide_eq_true (hnew m (by simpa using hm))
    · intro n hn; simpa using (mem_slicedNames.1 hn).1
  have o2 : others t.names (l.map Slot.name) = others t.names S := by
    unfold others
    refine List.filter_congr fun n hn => ?_
    rw [hln, decide_eq_decide, List.mem_append]
    have : n ∉ newName.toList := fun hc => hnew n (by simpa using hc) hn
    tauto
  obtain ⟨r, e1, e2, e3, ⟨e, e4, e5⟩, e6⟩ := unit_contract ce hg hcn hv h hb hi h0 hm hr hS
  rw [o1, o2] at e2
  have hum : ∀ m ∈ newName, edgeOf u m =
      ⟨TatSym.isFermi σ && arrow, [(chosenTotal cfg t.names, 1)]⟩ := by
    intro m hm
    exact hv.map (s := ⟨m, arrow, chosenTotal cfg t.names, 0, 1⟩) ((ml _).2 (Or.inr ⟨m, hm, rfl⟩))
  have hmapN : ∀ n ∈ r.names, (if n ∈ t.names then edgeOf t n else edgeOf u n).map =
      if n ∈ t.names then mapOf t n else [(chosenTotal cfg t.names, 1)] := by
    intro n hn
    by_cases hnt : n ∈ t.names
    · rw [if_pos hnt, if_pos hnt]; rfl
    · rw [if_neg hnt, if_neg hnt]
      rw [e2] at hn
      rcases List.mem_append.1 hn with hn | hn
      · rw [hum n (by simpa using hn)]
      · exact absurd (mem_others.1 hn).1 hnt
  refine ⟨r, e1, e2, e3, ⟨e, e4, fun n hn => ?_, fun m hm => ?_⟩, fun p hp => ?_⟩
  · have := e5 n (by rw [e2]; exact List.mem_append_right _ hn)
    rw [if_pos (mem_others.1 hn).1] at this
    exact this
  · have := e5 m (by rw [e2]; exact List.mem_append_left _ (by simpa using hm))
    rw [if_neg (hnew m hm), hum m hm] at this
    refine ⟨this.1, fun hf ha => ?_⟩
    have h2 := this.2 hf
    rw [hf, Bool.true_and] at h2
    exact h2 ha
  · have hslice : slicePos l t.names p = placed cfg t.names p := by
      funext n
      unfold placed
      by_cases hnt : n ∈ t.names
      · rw [if_pos hnt]
        cases hc : chosen cfg n with
        | none =>
          rw [slicePos_not p (Or.inl ?_)]
          · rfl
          · rw [hln, List.mem_append, mem_slicedNames, hc]
            rintro (⟨_, x, hx⟩ | hx)
            · simp at hx
            · exact hnew n (by simpa using hx) hnt
        | some x =>
          have hnS : n ∈ S := mem_slicedNames.2 ⟨hnt, x, hc⟩
          have := slicePos_mem hnl p (s := slotOf t cfg n) ((ml _).2 (Or.inl ⟨n, hnS, rfl⟩)) hnt
          simp only [slotOf, hc, Option.getD_some, neg_neg] at this
          rw [this]
          rfl
      · rw [if_neg hnt, slicePos_not p (Or.inr hnt)]
    have hnewp : ∀ m ∈ newName, p m = (chosenTotal cfg t.names, 0) := by
      intro m hm
      have := hp.1 m (by rw [e2]; exact List.mem_append_left _ (by simpa using hm))
      dsimp only at this
      rw [if_neg (hnew m hm)] at this
      simp only [dimM, OMap.find?] at this
      by_cases he : (p m).1 = chosenTotal cfg t.names
      · rw [if_pos he] at this
        exact Prod.ext he (by simpa using this)
      · rw [if_neg he] at this; simp at this
    have hat : AtSlots (l.filter fun s => decide (s.name ∉ t.names)) p := by
      intro s hs
      rw [List.mem_filter, decide_eq_true_iff] at hs
      rcases (ml s).1 hs.1 with ⟨n, hn, rfl⟩ | ⟨m, hm, rfl⟩
      · exact absurd (mem_slicedNames.1 hn).1 hs.2
      · exact hnewp m hm
    have hval : ValidPos t (placed cfg t.names p) := by
      rw [validPos_iff h]
      refine ⟨fun n hn => ?_, ?_⟩
      · unfold placed
        rw [if_pos hn]
        cases hc : chosen cfg n with
        | none =>
          have := hp.1 n (by
            rw [e2]
            refine List.mem_append_right _ (mem_others.2 ⟨hn, fun hs => ?_⟩)
            obtain ⟨_, x, hx⟩ := mem_slicedNames.1 hs
            rw [hc] at hx
            simp at hx)
          dsimp only at this
          rw [if_pos hn] at this
          exact this
        | some x => exact hpos n hn x hc
      · have hperm : t.names.Perm (others t.names S ++ S) := by
          unfold others
          rw [hSdef]
          unfold slicedNames
          refine List.Perm.trans (List.filter_append_perm (fun n => (chosen cfg n).isSome) _).symm ?_
          refine List.perm_append_comm.trans (List.Perm.append_right _ ?_)
          refine List.Perm.of_eq (List.filter_congr fun n hn => ?_)
          rw [Bool.eq_iff_iff, decide_eq_true_iff, List.mem_filter]
          simp [hn]
        have e1 : (keyOf t.names (placed cfg t.names p)).sum =
            (keyOf (others t.names S ++ S) (placed cfg t.names p)).sum := (hperm.map _).sum_eq
        rw [e1, keyOf_append, List.sum_append]
        have k1 : keyOf (others t.names S) (placed cfg t.names p) = keyOf (others t.names S) p := by
          refine List.map_congr_left fun n hn => ?_
          obtain ⟨a, b⟩ := mem_others.1 hn
          unfold placed
          rw [if_pos a]
          cases hc : chosen cfg n with
          | none => rfl
          | some x => exact absurd (mem_slicedNames.2 ⟨a, x, hc⟩) b
        have k2 : (keyOf S (placed cfg t.names p)).sum = chosenTotal cfg t.names := by
          unfold chosenTotal
          congr 1
          refine List.map_congr_left fun n hn => ?_
          obtain ⟨a, x, hx⟩ := mem_slicedNames.1 hn
          unfold placed
          rw [if_pos a, hx]
          rfl
        have k3 : (keyOf newName.toList p).sum = chosenTotal cfg t.names := by
          cases hnn : newName with
          | none => rw [hnone hnn]; rfl
          | some m =>
            simp [keyOf, hnewp m (by rw [hnn]; rfl)]
        have := hp.2
        rw [e2, keyOf_append, List.sum_append, k3] at this
        rw [k1, k2, add_comm]
        exact this
    refine ⟨amp t (placed cfg t.names p), amp_valid h hval, ?_⟩
    rw [e6 p ⟨fun n hn => ?_, hp.2⟩]
    · rw [if_pos hat, hslice, hln]
    · have := hp.1 n hn
      dsimp only at this ⊢
      rw [hmapN n hn]
      exact this

/-- **C32**, tensors without symmetry: `shrink` returns exactly the slice. -/
theorem C32_noSymmetry [CommRing α] (hns : TatSym.isNoSym σ = true) (ce : ContractEnv σ α)
    (hg : GemmOk ce.gemm) (junk : List σ → ℕ → α) {cn : ContractNames ν}
    (hcn : [cn.c0, cn.c1, cn.c2].Nodup) {t : Tensor ν σ α} (h : WF t) (hb : t.core.blocks ≠ [])
    {cfg : List (ν × (σ × ℕ))}
    (hpos : ∀ n ∈ t.names, ∀ x, chosen cfg n = some x → x.2 < dimM (mapOf t n) x.1)
    {newName : Option ν} (hnew : ∀ m ∈ newName, m ∉ t.names) (arrow : Bool) :
    ∃ r, shrink ce junk cn t cfg newName arrow = .ok r ∧
      r.names = newName.toList ++ others t.names (slicedNames cfg t.names) ∧ WF r ∧
      (∀ n ∈ r.names, mapOf r n = if n ∈ t.names then mapOf t n else [(0, 1)]) ∧
      ∀ p, ValidPos r p → elem r p = elem t (placed cfg t.names p) := by
  have z : ∀ s : σ, s = 0 := fun s => TatSym.noSym_eq hns s 0
  have hkeys : ∀ n ∈ t.names, OMap.keys (mapOf t n) = [0] := by
    intro n hn
    obtain ⟨q, hq⟩ := exists_key_of_blocks h.shaped hb
    have h1 := hq.1 n hn
    have h2 := (mapOf_sorted h n hn).nodup
    match hk : OMap.keys (mapOf t n) with
    | [] => rw [hk] at h1; simp at h1
    | [s] => rw [z s]
    | a :: b :: l =>
      rw [hk] at h2
      simp [z a, z b] at h2
  obtain ⟨r, e1, e2, e3, ⟨e, e4, e5, e6⟩, e7⟩ := C32_shrink_partial ce hg junk hcn h hb hpos
    (Or.inl fun n hn x _ => by rw [hkeys n hn, z x.1]) (newName := newName) (fun _ => z _) hnew arrow
  have hmap : ∀ n ∈ r.names, (e n).map = if n ∈ t.names then mapOf t n else [(0, 1)] := by
    intro n hn
    rw [e2] at hn
    rcases List.mem_append.1 hn with hn | hn
    · have hn' : n ∈ newName := by simpa using hn
      rw [if_neg (hnew n hn'), (e6 n hn').1, z (chosenTotal cfg t.names)]
    · rw [if_pos (mem_others.1 hn).1, (e5 n hn).1]
  have hk0 : ∀ n ∈ r.names, OMap.keys (e n).map = [0] := by
    intro n hn
    rw [hmap n hn]
    split
    · exact hkeys n ‹_›
    · rfl
  have hed : r.core.edges = r.names.map e := by
    rw [e4, prunedEdges_eq_iff e3.nodup]
    intro n hn s hs
    exact ⟨fun _ => (0, 0), ⟨fun m hm => by dsimp only; rw [hk0 m hm]; simp, z _⟩, (z s).symm⟩
  have hme : ∀ n ∈ r.names, mapOf r n = if n ∈ t.names then mapOf t n else [(0, 1)] := by
    intro n hn
    unfold mapOf
    rw [edgeOf_unique e3 hed n hn, hmap n hn]
    rfl
  refine ⟨r, e1, e2, e3, hme, fun p hp => ?_⟩
  have hp' := (validPos_iff e3).1 hp
  obtain ⟨v, v1, v2⟩ := e7 p ⟨fun n hn => by
    have := hp'.1 n hn
    rw [hme n hn] at this
    rw [z (chosenTotal cfg t.names)]
    exact this, hp'.2⟩
  have hf : TatSym.isFermi σ = false := TatSym.noSym_bose hns
  rw [v2, v1]
  unfold sliceSign
  rw [hf, if_neg (by simp), one_smul]

theorem shrink_fails [CommRing α] (hns : TatSym.isNoSym σ = false) {t : Tensor ν σ α} (h : WF t)
    (hf : TatSym.isFermi σ = true → ∀ n ∈ t.names, (edgeOf t n).arrow = false) (ce : ContractEnv σ α)
    (junk : List σ → ℕ → α) (cn : ContractNames ν) {cfg : List (ν × (σ × ℕ))}
    (hpos : ∀ n ∈ t.names, ∀ x, chosen cfg n = some x → x.2 < dimM (mapOf t n) x.1)
    {n : ν} (hn : n ∈ t.names) {x : σ × ℕ} (hx : chosen cfg n = some x) {s : σ}
    (hs : s ∈ OMap.keys (mapOf t n)) (hsx : s ≠ x.1)
    {newName : Option ν} (hnew : ∀ m ∈ newName, m ∉ t.names) (arrow : Bool) (r : Tensor ν σ α) :
    shrink ce junk cn t cfg newName arrow ≠ .ok r := by
  by_cases hnone : newName = none → chosenTotal cfg t.names = 0
  · have hk : ∀ n ∈ t.names, ∀ x, chosen cfg n = some x → x.1 ∈ OMap.keys (mapOf t n) := by
      intro n hn x hx
      have := hpos n hn x hx
      by_contra hc
      unfold dimM at this
      rw [OMap.find?_eq_none.2 hc] at this
      simp at this
    rw [shrink_eq ce junk cn h hk hnone]
    set l := allSlots t cfg newName arrow with hldef
    have hln : l.map Slot.name = slicedNames cfg t.names ++ newName.toList :=
      allSlots_names newName arrow
    have hnl : (l.map Slot.name).Nodup := by
      rw [hln, List.nodup_append]
      refine ⟨h.nodup.filter _, by cases newName <;> simp, ?_⟩
      rintro x hx y hy rfl
      exact hnew x (by simpa using hy) (mem_slicedNames.1 hx).1
    have ml : ∀ s ∈ l, (∃ n ∈ slicedNames cfg t.names, s = slotOf t cfg n) ∨
        ∃ m ∈ newName, s = ⟨m, arrow, chosenTotal cfg t.names, 0, 1⟩ := by
      intro s hs
      rw [hldef] at hs
      unfold allSlots at hs
      rcases List.mem_append.1 hs with hs | hs
      · obtain ⟨n, h1, h2⟩ := List.mem_map.1 hs; exact Or.inl ⟨n, h1, h2.symm⟩
      · obtain ⟨n, h1, h2⟩ := List.mem_map.1 hs; exact Or.inr ⟨n, by simpa using h1, h2.symm⟩
    have h0 : (l.map Slot.sym).sum = 0 := by
      rw [hldef]
      unfold allSlots
      rw [List.map_append, List.sum_append, slots_sum]
      cases hnn : newName with
      | none =>
        have := hnone hnn
        unfold chosenTotal at this
        rw [this]; simp
      | some m =>
        simp only [Option.toList_some, List.map_cons, List.map_nil, List.sum_cons, List.sum_nil,
          add_zero]
        exact neg_add_cancel _
    have hi : ∀ s ∈ l, s.index < s.dim := by
      intro s hs
      rcases ml s hs with ⟨n, hn, rfl⟩ | ⟨m, _, rfl⟩
      · obtain ⟨h1, x, hx⟩ := mem_slicedNames.1 hn
        have := hpos n h1 x hx
        unfold slotOf
        rw [hx]
        exact this
      · exact Nat.one_pos
    obtain ⟨u, hu, hv⟩ := unitTensor_spec junk l (o := slotOffset l) rfl hnl h0 hi
    rw [hu]
    have hnS : n ∈ slicedNames cfg t.names := mem_slicedNames.2 ⟨hn, x, hx⟩
    have hsl : slotOf t cfg n ∈ l := by
      rw [hldef]
      unfold allSlots
      exact List.mem_append_left _ (List.mem_map_of_mem hnS)
    have hnu : n ∈ u.names := by
      rw [hv.names]
      exact List.mem_map.2 ⟨_, hsl, rfl⟩
    obtain ⟨q, hq, hqs⟩ := exists_key_at h hn hs
    have hmem : (n, n) ∈ knownPairs u t ((OMap.keys (OMap.ofList (u.names.map fun n => (n, ())))).map
        fun n => (n, n)) := by
      refine List.mem_filter.2 ⟨List.mem_map.2 ⟨n, ?_, rfl⟩, decide_eq_true ⟨hnu, hn⟩⟩
      rw [keys_unitMap]; exact hnu
    have hmis : ∃ p : ν → σ × ℕ, keyOf t.names p ∈ OMap.keys t.core.blocks ∧
        -(p n).1 ∉ OMap.keys (mapOf u n) := ⟨q, (mem_keys_named h q).2 hq, ?_⟩
    · by_cases hfe : TatSym.isFermi σ = true
      · exact C28_fermi_must_match ce cn hns hfe hv.wf h rfl hmem (Or.inr ⟨hmis, hf hfe⟩) r
      · exact C28_sectors_must_match ce cn hns (by simpa using hfe) hv.wf h (c := (n, n))
          (List.mem_filter.1 hmem).1 hnu hn (Or.inr hmis) r
    · rw [hqs]
      unfold mapOf
      have := hv.map hsl
      have hname : (slotOf t cfg n).name = n := rfl
      rw [hname] at this
      rw [this]
      simp only [Slot.edge, slotOf, hx, Option.getD_some, OMap.keys, List.map_cons, List.map_nil,
        List.mem_singleton, neg_inj]
      exact hsx
  · push Not at hnone
    obtain ⟨rfl, ht⟩ := hnone
    intro hc
    have hk : ∀ n ∈ t.names, ∀ x, chosen cfg n = some x → x.1 ∈ OMap.keys (mapOf t n) := by
      intro n hn x hx
      have := hpos n hn x hx
      by_contra hc
      unfold dimM at this
      rw [OMap.find?_eq_none.2 hc] at this
      simp at this
    unfold shrink at hc
    rw [shrinkSlots_eq h hk] at hc
    dsimp only [Outcome.bind] at hc
    rw [slots_total, if_pos (by simp [hns, ht])] at hc
    simp at hc

/-- **C32** is false for symmetric tensors without fermions: if an edge to be fixed has a second
symmetry, `shrink` does not succeed whatever is chosen. -/
theorem C32_bosonic_fails [CommRing α] (hns : TatSym.isNoSym σ = false)
    (hf : TatSym.isFermi σ = false) (ce : ContractEnv σ α)
    (junk : List σ → ℕ → α) (cn : ContractNames ν) {t : Tensor ν σ α} (h : WF t)
    {cfg : List (ν × (σ × ℕ))}
    (hpos : ∀ n ∈ t.names, ∀ x, chosen cfg n = some x → x.2 < dimM (mapOf t n) x.1)
    {n : ν} (hn : n ∈ t.names) {x : σ × ℕ} (hx : chosen cfg n = some x) {s : σ}
    (hs : s ∈ OMap.keys (mapOf t n)) (hsx : s ≠ x.1)
    {newName : Option ν} (hnew : ∀ m ∈ newName, m ∉ t.names) (arrow : Bool) (r : Tensor ν σ α) :
    shrink ce junk cn t cfg newName arrow ≠ .ok r :=
  shrink_fails hns h (fun h' => by rw [hf] at h'; cases h') ce junk cn hpos hn hx hs hsx hnew arrow r

/-- **C32** is false for fermionic tensors all of whose arrows are `false`, too. -/
theorem C32_fermi_fails [CommRing α] (hns : TatSym.isNoSym σ = false)
    (ce : ContractEnv σ α)
    (junk : List σ → ℕ → α) (cn : ContractNames ν) {t : Tensor ν σ α} (h : WF t)
    (ha : ∀ n ∈ t.names, (edgeOf t n).arrow = false)
    {cfg : List (ν × (σ × ℕ))}
    (hpos : ∀ n ∈ t.names, ∀ x, chosen cfg n = some x → x.2 < dimM (mapOf t n) x.1)
    {n : ν} (hn : n ∈ t.names) {x : σ × ℕ} (hx : chosen cfg n = some x) {s : σ}
    (hs : s ∈ OMap.keys (mapOf t n)) (hsx : s ≠ x.1)
    {newName : Option ν} (hnew : ∀ m ∈ newName, m ∉ t.names) (arrow : Bool) (r : Tensor ν σ α) :
    shrink ce junk cn t cfg newName arrow ≠ .ok r :=
  shrink_fails hns h (fun _ => ha) ce junk cn hpos hn hx hs hsx hnew arrow r

/-- **C32**: a symmetry the edge does not have is an error. -/
theorem C32_missing_symmetry [CommRing α] (ce : ContractEnv σ α)
    (junk : List σ → ℕ → α) (cn : ContractNames ν) {t : Tensor ν σ α} (h : WF t)
    {cfg : List (ν × (σ × ℕ))} {n : ν} (hn : n ∈ t.names) {x : σ × ℕ} (hc : chosen cfg n = some x)
    (hx : x.1 ∉ OMap.keys (mapOf t n)) (newName : Option ν) (arrow : Bool) :
    shrink ce junk cn t cfg newName arrow = .error "map::at" := by
  unfold shrink
  rw [shrinkSlots_error h hn hc hx]
  rfl

/-- **C32**: a nonzero total symmetry without a name for the edge carrying it is an error. -/
theorem C32_need_new_edge [CommRing α] (hns : TatSym.isNoSym σ = false) (ce : ContractEnv σ α)
    (junk : List σ → ℕ → α) (cn : ContractNames ν) {t : Tensor ν σ α} (h : WF t)
    {cfg : List (ν × (σ × ℕ))}
    (hk : ∀ n ∈ t.names, ∀ x, chosen cfg n = some x → x.1 ∈ OMap.keys (mapOf t n))
    (ht : chosenTotal cfg t.names ≠ 0) (arrow : Bool) :
    shrink ce junk cn t cfg none arrow =
      .error "Need to Create a New Edge but Name not set in Slice" := by
  unfold shrink
  rw [shrinkSlots_eq h hk]
  dsimp only [Outcome.bind]
  rw [slots_total, if_pos (by simp [hns, ht])]

/-- **C33** (partial): `expand` puts the tensor at the chosen positions of the new edges, in front of
its own edges, and zero elsewhere; the old edge, if given, disappears.

Missing: new edges whose symmetries do not add up to zero (`h0`); the claim is false there, see
`C33_nonzero_undefined`. -/
theorem C33_expand_partial [CommRing α] (ce : ContractEnv σ α) (hg : GemmOk ce.gemm)
    (junk : List σ → ℕ → α) {cn : ContractNames ν} (hcn : [cn.c0, cn.c1, cn.c2].Nodup)
    {t : Tensor ν σ α} (h : WF t) (hb : t.core.blocks ≠ []) {cfg : List (Slot ν σ)}
    (hn : (cfg.map Slot.name).Nodup) (hd : ∀ s ∈ cfg, s.name ∉ t.names)
    (hi : ∀ s ∈ cfg, s.index < s.dim) (h0 : (cfg.map Slot.sym).sum = 0) {oldName : Option ν}
    (ho : ∀ o ∈ oldName, o ∈ t.names ∧ mapOf t o = [(0, 1)]) :
    ∃ r, expand ce junk cn t cfg oldName = .ok r ∧
      r.names = cfg.map Slot.name ++ others t.names oldName.toList ∧ WF r ∧
      (∀ s ∈ cfg, mapOf r s.name = [(s.sym, s.dim)] ∧
        (TatSym.isFermi σ = true → arrowValid (⟨s.arrow, [(s.sym, s.dim)]⟩ : Edge σ) = true →
          (edgeOf r s.name).arrow = s.arrow)) ∧
      (∀ n ∈ others t.names oldName.toList, mapOf r n = mapOf t n ∧
        (TatSym.isFermi σ = true → arrowValid (edgeOf t n) = true →
          (edgeOf r n).arrow = (edgeOf t n).arrow)) ∧
      ∀ p, ValidPos r p → elem r p =
        if ∀ s ∈ cfg, p s.name = (s.sym, s.index) then
          elem t fun n => if n ∈ oldName then (0, 0) else p n
        else some 0 := by
  obtain ⟨r, e1, e2, e3, e4, e5, e6⟩ := expand_spec ce hg junk hcn h hb hn hd hi h0 ho
  exact ⟨r, e1, e2, e3, fun s hs => ⟨(e4 s hs).1, fun hf ha => (e4 s hs).2 hf (by
    unfold Slot.edge; rw [hf]; exact ha)⟩, e5, e6⟩

/-- **C33** is false if the symmetries of the new edges do not add up to zero: the helper tensor has
no block and shrink_and_expand.hpp 75 or 92 writes through the end iterator of an empty map. -/
theorem C33_nonzero_undefined [CommRing α] (ce : ContractEnv σ α)
    (junk : List σ → ℕ → α) (cn : ContractNames ν) {t : Tensor ν σ α} (h : WF t)
    {cfg : List (Slot ν σ)} (hn : (cfg.map Slot.name).Nodup) (hd : ∀ s ∈ cfg, s.name ∉ t.names)
    (h0 : (cfg.map Slot.sym).sum ≠ 0) {oldName : Option ν}
    (ho : ∀ o ∈ oldName, o ∈ t.names ∧ mapOf t o = [(0, 1)]) :
    expand ce junk cn t cfg oldName = .ub := by
  rw [expand_eq ce junk cn h cfg ho, unitTensor_ub]
  · rfl
  · rw [oldSlots_names, List.nodup_append]
    refine ⟨hn, by cases oldName <;> simp, ?_⟩
    rintro x hx y hy rfl
    obtain ⟨s, hs, rfl⟩ := List.mem_map.1 hx
    exact hd s hs (ho _ (by simpa using hy)).1
  · rwa [oldSlots_sum]

/-- **C33**: an old edge of nonzero symmetry cannot be replaced, whatever the new edges are. -/
theorem C33_old_nonzero [CommRing α] (hns : TatSym.isNoSym σ = false) (ce : ContractEnv σ α)
    (junk : List σ → ℕ → α) (cn : ContractNames ν) {t : Tensor ν σ α} (h : WF t)
    (cfg : List (Slot ν σ)) {o : ν} (ho : o ∈ t.names) {s : σ} (hs : s ≠ 0)
    (hm : mapOf t o = [(s, 1)]) :
    expand ce junk cn t cfg (some o) =
      .error "Cannot Expand to such Edges whose total Symmetry is not Compatible with origin Edge" := by
  unfold expand
  dsimp only
  rw [edgeAt_eq h.shaped ho]
  dsimp only [Outcome.bind]
  have h2 : (edgeOf t o).map = [(s, 1)] := hm
  rw [h2]
  have h3 : (!TatSym.isNoSym σ && decide (s ≠ 0)) = true := by simp [hns, hs]
  simp only [h3]
  rw [if_pos trivial]

/-- **C33**: an old edge of another dimension is an error. -/
theorem C33_old_not_one [CommRing α] (ce : ContractEnv σ α)
    (junk : List σ → ℕ → α) (cn : ContractNames ν) {t : Tensor ν σ α} (h : WF t)
    (cfg : List (Slot ν σ)) {o : ν} (ho : o ∈ t.names) (hm : ∀ s, mapOf t o ≠ [(s, 1)]) :
    expand ce junk cn t cfg (some o) = .error "Cannot Expand a Edge which dimension is not one" := by
  unfold expand
  dsimp only
  rw [edgeAt_eq h.shaped ho]
  dsimp only [Outcome.bind]
  have h2 : ∀ s, (edgeOf t o).map ≠ [(s, 1)] := hm
  split
  · rename_i s he
    exact absurd he (h2 s)
  · rfl

/-- **C33**: the way back.  `shrink` at the positions given to `expand`, with the old name for the new
edge, returns the tensor with the old edge in front: the elements are the same up to the sign
`sliceSign`, which is 1 without fermions. -/
theorem C33_shrink_expand [CommRing α] (ce ce' : ContractEnv σ α) (hg : GemmOk ce.gemm)
    (hg' : GemmOk ce'.gemm) (junk junk' : List σ → ℕ → α) {cn : ContractNames ν}
    (hcn : [cn.c0, cn.c1, cn.c2].Nodup) {t : Tensor ν σ α} (h : WF t) (hb : t.core.blocks ≠ [])
    {cfg : List (Slot ν σ)} (hn : (cfg.map Slot.name).Nodup) (hd : ∀ s ∈ cfg, s.name ∉ t.names)
    (hi : ∀ s ∈ cfg, s.index < s.dim) (h0 : (cfg.map Slot.sym).sum = 0) {oldName : Option ν}
    (ho : ∀ o ∈ oldName, o ∈ t.names ∧ mapOf t o = [(0, 1)]) (arrow : Bool) :
    ∃ u r, expand ce junk cn t cfg oldName = .ok u ∧
      shrink ce' junk' cn u (cfg.map fun s => (s.name, (s.sym, s.index))) oldName arrow = .ok r ∧
      r.names = oldName.toList ++ others t.names oldName.toList ∧ WF r ∧
      ∀ p, ValidPos t p → ∃ v, elem t p = some v ∧ elem r p =
        some (sliceSign u (cfg.map Slot.name ++ oldName.toList) (cfg.map Slot.name)
          (placed (cfg.map fun s => (s.name, (s.sym, s.index))) u.names p) • v) := by
  obtain ⟨u, e1, e2, e3, e4, e5, e6⟩ := expand_spec ce hg junk hcn h hb hn hd hi h0 ho
  set pos := cfg.map fun s => (s.name, (s.sym, s.index)) with hpos
  have hcfgn : ∀ n ∈ cfg.map Slot.name, n ∉ t.names := by
    intro n hn'
    obtain ⟨s, hs, rfl⟩ := List.mem_map.1 hn'
    exact hd s hs
  have hot : ∀ o ∈ oldName.toList, o ∈ t.names := fun o h => (ho o (by simpa using h)).1
  have hch : ∀ s ∈ cfg, chosen pos s.name = some (s.sym, s.index) := by
    intro s hs
    unfold chosen
    rw [hpos]
    clear hd hi h0 e1 e2 e4 e6 hcfgn hpos
    induction cfg with
    | nil => simp at hs
    | cons x l ih =>
      rw [List.map_cons, List.nodup_cons] at hn
      rw [List.map_cons, List.find?_cons]
      by_cases e : x.name = s.name
      · rw [decide_eq_true e]
        rcases List.mem_cons.1 hs with rfl | hs
        · rfl
        · exact absurd (e ▸ List.mem_map_of_mem hs) hn.1
      · rw [decide_eq_false e]
        rcases List.mem_cons.1 hs with rfl | hs
        · exact absurd rfl e
        · exact ih hn.2 hs
  have hchn : ∀ n, n ∉ cfg.map Slot.name → chosen pos n = none := by
    intro n hn'
    unfold chosen
    rw [Option.map_eq_none_iff, List.find?_eq_none]
    intro c hc
    obtain ⟨s, hs, rfl⟩ := List.mem_map.1 hc
    rw [decide_eq_true_iff]
    rintro rfl
    exact hn' (List.mem_map_of_mem hs)
  have hchs : ∀ n x, chosen pos n = some x → ∃ s ∈ cfg, s.name = n ∧ x = (s.sym, s.index) := by
    intro n x hx
    by_cases hc : n ∈ cfg.map Slot.name
    · obtain ⟨s, hs, rfl⟩ := List.mem_map.1 hc
      refine ⟨s, hs, rfl, ?_⟩
      rw [hch s hs] at hx
      exact (Option.some.inj hx).symm
    · rw [hchn n hc] at hx
      simp at hx
  have hsl : slicedNames pos u.names = cfg.map Slot.name := by
    unfold slicedNames
    rw [e2, List.filter_append, List.filter_eq_self.2, List.filter_eq_nil_iff.2, List.append_nil]
    · intro n hn'
      rw [hchn n fun hc => hcfgn n hc (mem_others.1 hn').1]
      simp
    · intro n hn'
      obtain ⟨s, hs, rfl⟩ := List.mem_map.1 hn'
      rw [hch s hs]; rfl
  have hot2 : others u.names (cfg.map Slot.name) = others t.names oldName.toList := by
    rw [e2]
    unfold others
    rw [List.filter_append, List.filter_eq_nil_iff.2, List.nil_append, List.filter_eq_self.2]
    · intro n hn'
      exact decide_eq_true fun hc => hcfgn n hc (List.mem_of_mem_filter hn')
    · intro n hn'; simpa using hn'
  have htot : chosenTotal pos u.names = 0 := by
    unfold chosenTotal
    rw [hsl, List.map_map, ← h0]
    congr 1
    refine List.map_congr_left fun s hs => ?_
    simp only [Function.comp]
    rw [hch s hs]; rfl
  have hub : u.core.blocks ≠ [] := by
    obtain ⟨q, hq⟩ := exists_key_of_blocks h.shaped hb
    have hk : KeyOk (mapOf u) u.names fun n => (chosen pos n).getD (q n) := by
      refine ⟨fun n hn' => ?_, ?_⟩
      · rw [e2] at hn'
        rcases List.mem_append.1 hn' with hn' | hn'
        · obtain ⟨s, hs, rfl⟩ := List.mem_map.1 hn'
          dsimp only
          rw [hch s hs, (e4 s hs).1]
          simp [OMap.keys]
        · obtain ⟨a, b⟩ := mem_others.1 hn'
          dsimp only
          rw [hchn n fun hc => hcfgn n hc a, (e5 n hn').1]
          exact hq.1 n a
      · rw [e2, keyOf_append, List.sum_append]
        have k1 : keyOf (cfg.map Slot.name) (fun n => (chosen pos n).getD (q n)) =
            cfg.map Slot.sym := by
          unfold keyOf
          rw [List.map_map]
          exact List.map_congr_left fun s hs => by simp only [Function.comp]; rw [hch s hs]; rfl
        have k2 : keyOf (others t.names oldName.toList) (fun n => (chosen pos n).getD (q n)) =
            keyOf (others t.names oldName.toList) q :=
          List.map_congr_left fun n hn' => by
            dsimp only
            rw [hchn n fun hc => hcfgn n hc (mem_others.1 hn').1]; rfl
        have hperm : t.names.Perm (others t.names oldName.toList ++ oldName.toList) := by
          refine (List.perm_ext_iff_of_nodup h.nodup ?_).2 fun n => ?_
          · rw [List.nodup_append]
            refine ⟨h.nodup.filter _, by cases oldName <;> simp, ?_⟩
            rintro x hx y hy rfl
            exact (mem_others.1 hx).2 hy
          · rw [List.mem_append, mem_others]
            have := hot n
            tauto
        have a2 : (keyOf t.names q).sum = (keyOf (others t.names oldName.toList ++
            oldName.toList) q).sum := (hperm.map _).sum_eq
        have a3 : (keyOf oldName.toList q).sum = 0 := by
          cases hoo : oldName with
          | none => rfl
          | some o =>
            obtain ⟨b1, b2⟩ := ho o (by rw [hoo]; rfl)
            have := hq.1 o b1
            rw [b2] at this
            simp only [OMap.keys, List.map_cons, List.map_nil, List.mem_singleton] at this
            simp [keyOf, this]
        rw [k1, h0, zero_add, k2]
        have := hq.2
        rw [a2, keyOf_append, List.sum_append, a3, add_zero] at this
        exact this
    intro hc
    have := (mem_keys_named e3 _).2 hk
    rw [hc] at this
    simp [OMap.keys] at this
  have hnew : ∀ m ∈ oldName, m ∉ u.names := by
    intro m hm hmu
    rw [e2] at hmu
    rcases List.mem_append.1 hmu with hmu | hmu
    · exact hcfgn m hmu (ho m hm).1
    · exact (mem_others.1 hmu).2 (by simpa using hm)
  obtain ⟨r, f1, f2, f3, f4, f5⟩ := C32_shrink_partial ce' hg' junk' hcn e3 hub (cfg := pos)
    (fun n hn' x hx => by
      obtain ⟨s, hs, rfl, rfl⟩ := hchs n x hx
      rw [(e4 s hs).1]
      simpa [dimM, OMap.find?] using hi s hs)
    (Or.inl fun n hn' x hx => by
      obtain ⟨s, hs, rfl, rfl⟩ := hchs n x hx
      rw [(e4 s hs).1]
      rfl)
    (newName := oldName) (fun _ => htot) hnew arrow
  rw [hsl, hot2] at f2
  refine ⟨u, r, e1, f1, f2, f3, fun p hp => ?_⟩
  have hp' := (validPos_iff h).1 hp
  have hold : ∀ o ∈ oldName, p o = (0, 0) := by
    intro o ho'
    have := hp'.1 o (ho o ho').1
    rw [(ho o ho').2] at this
    simp only [dimM, OMap.find?] at this
    by_cases e : (p o).1 = 0
    · rw [if_pos e] at this
      exact Prod.ext e (by simpa using this)
    · rw [if_neg e] at this; simp at this
  have hfine : FineOk (fun n => if n ∈ u.names then mapOf u n else [(chosenTotal pos u.names, 1)])
      r.names p := by
    refine ⟨fun n hn' => ?_, ?_⟩
    · rw [f2] at hn'
      dsimp only
      rcases List.mem_append.1 hn' with hn' | hn'
      · have hn'' : n ∈ oldName := by simpa using hn'
        rw [if_neg (hnew n hn''), htot, hold n hn'']
        simp [dimM, OMap.find?]
      · rw [if_pos (by rw [e2]; exact List.mem_append_right _ hn'), (e5 n hn').1]
        exact hp'.1 n (mem_others.1 hn').1
    · have hperm : r.names.Perm t.names := by
        rw [f2]
        refine (List.perm_ext_iff_of_nodup ?_ h.nodup).2 fun n => ?_
        · rw [← f2]; exact f3.nodup
        · rw [List.mem_append, mem_others]
          have := hot n
          tauto
      rw [show (keyOf r.names p).sum = (keyOf t.names p).sum from (hperm.map _).sum_eq]
      exact hp'.2
  obtain ⟨v, v1, v2⟩ := f5 p hfine
  rw [hsl] at v2
  refine ⟨v, ?_, v2⟩
  rw [← v1]
  have hpl : ∀ s ∈ cfg, placed pos u.names p s.name = (s.sym, s.index) := by
    intro s hs
    unfold placed
    rw [if_pos (by rw [e2]; exact List.mem_append_left _ (List.mem_map_of_mem hs)), hch s hs]
    rfl
  have hval : ValidPos u (placed pos u.names p) := by
    rw [validPos_iff e3]
    refine ⟨fun n hn' => ?_, ?_⟩
    · rw [e2] at hn'
      rcases List.mem_append.1 hn' with hn' | hn'
      · obtain ⟨s, hs, rfl⟩ := List.mem_map.1 hn'
        rw [hpl s hs, (e4 s hs).1]
        simpa [dimM, OMap.find?] using hi s hs
      · unfold placed
        rw [if_pos (by rw [e2]; exact List.mem_append_right _ hn'),
          hchn n fun hc => hcfgn n hc (mem_others.1 hn').1, (e5 n hn').1]
        exact hp'.1 n (mem_others.1 hn').1
    · by_contra hc
      have : elem u (placed pos u.names p) ≠ some v := by
        unfold elem elemAt
        have hk : keyOf u.names (placed pos u.names p) ∉ OMap.keys u.core.blocks := by
          rw [mem_keys_named e3]
          exact fun hk => hc hk.2
        rw [OMap.find?_eq_none.2 hk]
        simp
      exact this v1
  rw [e6 _ hval, if_pos (c := AtSlots cfg _) hpl]
  refine elem_congr t fun n hn' => ?_
  unfold atOld
  by_cases hno : n ∈ oldName
  · rw [if_pos hno, hold n hno]
  · rw [if_neg hno]
    unfold placed
    split
    · rw [hchn n fun hc => hcfgn n hc hn']; rfl
    · rfl

end

/-! ## concrete cases -/

/-- Slicing edge 5 at index 1 and edge 4 at index 0. -/
example : WF sampleN2 ∧ (∀ n ∈ sampleN2.names, ∀ x, chosen [(5, ((⟨⟩ : NoSymmetry), 1)), (4, (⟨⟩, 0))] n =
      some x → x.2 < dimM (mapOf sampleN2 n) x.1) ∧
    shrink ce0 (fun _ _ => 77) names0 sampleN2 [(5, (⟨⟩, 1)), (4, (⟨⟩, 0))] (some 9) false =
      .ok ⟨[9, 1], [⟨false, [(⟨⟩, 1)]⟩, ⟨false, [(⟨⟩, 2)]⟩], [([⟨⟩, ⟨⟩], [2, -2])]⟩ := by
  refine ⟨sampleN2_wf, fun n hn x hx => ?_, by decide +kernel⟩
  have : n = 4 ∨ n = 5 ∨ n = 1 := by simpa [sampleN2, Tensor.names] using hn
  rcases this with rfl | rfl | rfl
  · obtain rfl : (⟨⟩, 0) = x := Option.some.inj hx
    decide
  · obtain rfl : (⟨⟩, 1) = x := Option.some.inj hx
    decide
  · exact absurd hx (by simp [chosen])

/-- **C32**: the index is not checked.  Index 4 of edge 5, which has dimension 3, together with index
0 of edge 4 reads the slice with index 1 of both edges. -/
theorem C32_index_unchecked :
    shrink ce0 (fun _ _ => 77) names0 sampleN2 [(5, (⟨⟩, 4)), (4, (⟨⟩, 0))] none false =
      shrink ce0 (fun _ _ => 77) names0 sampleN2 [(5, (⟨⟩, 1)), (4, (⟨⟩, 1))] none false ∧
    (shrink ce0 (fun _ _ => 77) names0 sampleN2 [(5, (⟨⟩, 4)), (4, (⟨⟩, 0))] none false).toOption.map
      (fun r => (r.names, r.core.blocks)) = some ([1], [([⟨⟩], [5, -5])]) := by
  decide +kernel

/-- The hypotheses of `C32_bosonic_fails`: edge 7 has the symmetries -1, 0 and 1. -/
example : WF sampleU1 ∧ chosen [(7, ((⟨-1⟩ : U1Symmetry), 0))] 7 = some (⟨-1⟩, 0) ∧
    ⟨0⟩ ∈ OMap.keys (mapOf sampleU1 7) ∧
    shrink ce0 (fun _ _ => 77) names0 sampleU1 [(7, (⟨-1⟩, 0))] (some 9) false =
      .error "map::at" := by
  refine ⟨sampleU1_wf, by decide, by decide, by decide +kernel⟩

/-- A fermionic tensor whose edges 0 and 1 have one symmetry each. -/
def sampleF1 : Tensor ℕ FermiSymmetry ℤ :=
  ⟨[0, 1, 2], [⟨true, [(⟨1⟩, 2)]⟩, ⟨true, [(⟨1⟩, 1)]⟩, ⟨false, [(⟨-2⟩, 2)]⟩],
    [([⟨1⟩, ⟨1⟩, ⟨-2⟩], [1, 2, 3, 4])]⟩

theorem sampleF1_wf : WF sampleF1 := by
  refine ⟨by decide, by decide, by decide, by decide +kernel, by decide +kernel⟩

/-- Two odd edges are fixed at once: the sign is -1. -/
example : WF sampleF1 ∧ OMap.keys (mapOf sampleF1 0) = [⟨1⟩] ∧ OMap.keys (mapOf sampleF1 1) = [⟨1⟩] ∧
    chosenTotal [(0, ((⟨1⟩ : FermiSymmetry), 1)), (1, (⟨1⟩, 0))] sampleF1.names = ⟨2⟩ ∧
    shrink ce0 (fun _ _ => 77) names0 sampleF1 [(0, (⟨1⟩, 1)), (1, (⟨1⟩, 0))] (some 9) true =
      .ok ⟨[9, 2], [⟨true, [(⟨2⟩, 1)]⟩, ⟨false, [(⟨-2⟩, 2)]⟩], [([⟨2⟩, ⟨-2⟩], [-3, -4])]⟩ :=
  ⟨sampleF1_wf, by decide, by decide, by decide, by decide +kernel⟩

example : shrink ce0 (fun _ _ => 77) names0 sampleF1 [(0, (⟨1⟩, 1)), (1, (⟨1⟩, 0))] none true =
    .error "Need to Create a New Edge but Name not set in Slice" := by
  decide +kernel

/-- A fixed edge with two symmetries and an arrow that is `true`: the slices of both. -/
example : WF sampleLack1 ∧ (edgeOf sampleLack1 2).arrow = true ∧
    OMap.keys (mapOf sampleLack1 0) = [⟨0⟩, ⟨1⟩] ∧
    shrink ce0 (fun _ _ => 77) names0 sampleLack1 [(0, (⟨1⟩, 1))] (some 9) true =
      .ok ⟨[9, 1, 2], [⟨true, [(⟨1⟩, 1)]⟩, ⟨true, [(⟨-1⟩, 1)]⟩, ⟨true, [(⟨0⟩, 1)]⟩],
        [([⟨1⟩, ⟨-1⟩, ⟨0⟩], [5])]⟩ ∧
    shrink ce0 (fun _ _ => 77) names0 sampleLack1 [(0, (⟨0⟩, 0))] none true =
      .ok ⟨[1, 2], [⟨true, [(⟨0⟩, 1)]⟩, ⟨true, [(⟨0⟩, 1)]⟩], [([⟨0⟩, ⟨0⟩], [1])]⟩ :=
  ⟨sampleLack1_wf, by decide, by decide, by decide +kernel, by decide +kernel⟩

/-- The hypotheses of `C32_fermi_fails`. -/
def sampleLack4 : Tensor ℕ FermiSymmetry ℤ :=
  ⟨[0, 1], [⟨false, [(⟨0⟩, 1), (⟨1⟩, 2)]⟩, ⟨false, [(⟨-1⟩, 1), (⟨0⟩, 1)]⟩],
    [([⟨0⟩, ⟨0⟩], [1]), ([⟨1⟩, ⟨-1⟩], [2, 5])]⟩

example : WF sampleLack4 ∧ (∀ n ∈ sampleLack4.names, (edgeOf sampleLack4 n).arrow = false) ∧
    (1 : ℕ) < dimM (mapOf sampleLack4 0) ⟨1⟩ ∧ ⟨0⟩ ∈ OMap.keys (mapOf sampleLack4 0) ∧
    shrink ce0 (fun _ _ => 77) names0 sampleLack4 [(0, (⟨1⟩, 1))] (some 9) true = .error "map::at" := by
  refine ⟨⟨by decide, by decide, by decide, by decide +kernel, by decide +kernel⟩, ?_⟩
  decide +kernel

/-- Replacing an edge of dimension one by two edges of opposite symmetry. -/
example : expand ce0 (fun _ _ => 77) names0
      (⟨[3, 4], [⟨false, [(⟨0⟩, 1)]⟩, ⟨false, [(⟨0⟩, 2)]⟩], [([⟨0⟩, ⟨0⟩], [5, 6])]⟩ :
        Tensor ℕ U1Symmetry ℤ) [⟨1, false, ⟨1⟩, 1, 2⟩, ⟨2, false, ⟨-1⟩, 0, 1⟩] (some 3) =
    .ok ⟨[1, 2, 4], [⟨false, [(⟨1⟩, 2)]⟩, ⟨false, [(⟨-1⟩, 1)]⟩, ⟨false, [(⟨0⟩, 2)]⟩],
      [([⟨1⟩, ⟨-1⟩, ⟨0⟩], [0, 0, 5, 6])]⟩ := by
  decide +kernel

/-- The hypotheses of `C33_nonzero_undefined` and of the errors. -/
example : WF sampleU1 ∧ (([⟨1, false, ⟨1⟩, 1, 2⟩] : List (Slot ℕ U1Symmetry)).map Slot.sym).sum ≠ 0 ∧
    (∀ s, mapOf sampleU1 7 ≠ [(s, 1)]) ∧
    expand ce0 (fun _ _ => 77) names0 sampleU1 [⟨1, false, ⟨1⟩, 1, 2⟩] none = .ub ∧
    expand ce0 (fun _ _ => 77) names0
      (⟨[3, 4], [⟨false, [(⟨1⟩, 1)]⟩, ⟨false, [(⟨-1⟩, 2)]⟩], [([⟨1⟩, ⟨-1⟩], [5, 6])]⟩ :
        Tensor ℕ U1Symmetry ℤ) [⟨1, false, ⟨1⟩, 1, 2⟩] (some 3) =
      .error "Cannot Expand to such Edges whose total Symmetry is not Compatible with origin Edge" :=
  ⟨sampleU1_wf, by decide, fun s hs => absurd (congrArg List.length hs)
      (show ¬ (mapOf sampleU1 7).length = 1 by decide), by decide +kernel,
    by decide +kernel⟩

/-- **C33** is false for fermions: with two odd new edges the way back gives the negative tensor. -/
theorem C33_round_trip_sign :
    ((expand ce0 (fun _ _ => 77) names0 (⟨[3], [⟨false, [(⟨0⟩, 2)]⟩], [([⟨0⟩], [5, 6])]⟩ :
        Tensor ℕ FermiSymmetry ℤ) [⟨1, false, ⟨1⟩, 0, 1⟩, ⟨2, false, ⟨-1⟩, 1, 2⟩] none).bind fun u =>
      shrink ce0 (fun _ _ => 77) names0 u [(1, (⟨1⟩, 0)), (2, (⟨-1⟩, 1))] none false) =
      .ok ⟨[3], [⟨false, [(⟨0⟩, 2)]⟩], [([⟨0⟩], [-5, -6])]⟩ := by
  decide +kernel

end TAT
