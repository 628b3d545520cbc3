import Verif.Shrink.Slots

/-!
# What `expand` computes
-/

set_option linter.unusedSectionVars false

namespace TAT

variable {ν σ α : Type} [LinearOrder ν] [TatSym σ]

/-- The slots of `expand` with the one for the old edge. -/
def oldSlots (t : Tensor ν σ α) (cfg : List (Slot ν σ)) (oldName : Option ν) : List (Slot ν σ) :=
  cfg ++ oldName.toList.map fun o => ⟨o, !(edgeOf t o).arrow, 0, 0, 1⟩

theorem oldSlots_names (t : Tensor ν σ α) (cfg : List (Slot ν σ)) (oldName : Option ν) :
    (oldSlots t cfg oldName).map Slot.name = cfg.map Slot.name ++ oldName.toList := by
  unfold oldSlots
  rw [List.map_append, List.map_map]
  congr 1
  exact List.map_id _

theorem oldSlots_sum (t : Tensor ν σ α) (cfg : List (Slot ν σ)) (oldName : Option ν) :
    ((oldSlots t cfg oldName).map Slot.sym).sum = (cfg.map Slot.sym).sum := by
  unfold oldSlots
  rw [List.map_append, List.sum_append]
  cases oldName <;> simp

/-- `expand` up to the contraction. -/
theorem expand_eq [CommRing α] (ce : ContractEnv σ α) (junk : List σ → ℕ → α) (cn : ContractNames ν)
    {t : Tensor ν σ α} (h : WF t) (cfg : List (Slot ν σ)) {oldName : Option ν}
    (ho : ∀ o ∈ oldName, o ∈ t.names ∧ mapOf t o = [(0, 1)]) :
    expand ce junk cn t cfg oldName =
      (unitTensor junk ((oldSlots t cfg oldName).map Slot.name)
        ((oldSlots t cfg oldName).map Slot.edge)
        (slotOffset (oldSlots t cfg oldName))).bind fun u => contractAllEdge ce cn u t := by
  unfold expand
  cases oldName with
  | none =>
    unfold oldSlots
    rw [Option.toList_none, List.map_nil, List.append_nil]
  | some o =>
    obtain ⟨h1, h2⟩ := ho o rfl
    dsimp only
    rw [edgeAt_eq h.shaped h1]
    dsimp only [Outcome.bind]
    have h2' : (edgeOf t o).map = [(0, 1)] := h2
    rw [h2']
    have h3 : (!TatSym.isNoSym σ && decide ((0 : σ) ≠ 0)) = false := by simp
    simp only [h3, neg_zero]
    rw [if_neg (by simp)]
    have : slotOffset (oldSlots t cfg (some o)) = slotOffset cfg := by
      unfold oldSlots slotOffset
      rw [List.foldl_append]
      simp
    rw [this]
    rfl

/-- Moving an even edge to the front gives no sign. -/
theorem exchangeOf_even {odd : ν → Bool} {A : List ν} (hA : A.Nodup) {o : ν} (ho : o ∈ A)
    (he : odd o = false) : exchangeOf odd A (o :: others A [o]) = 1 := by
  obtain ⟨A1, A2, rfl⟩ := List.append_of_mem ho
  rw [List.nodup_append, List.nodup_cons] at hA
  obtain ⟨n1, ⟨n2, n3⟩, n4⟩ := hA
  have e1 : others (A1 ++ o :: A2) [o] = A1 ++ A2 := by
    unfold others
    rw [List.filter_append, List.filter_cons, if_neg (by simp), List.filter_eq_self.2,
      List.filter_eq_self.2]
    · intro x hx
      simp only [List.mem_singleton, decide_not, Bool.not_eq_eq_eq_not, Bool.not_true,
        decide_eq_false_iff_not]
      rintro rfl
      exact n2 hx
    · intro x hx
      simp only [List.mem_singleton, decide_not, Bool.not_eq_eq_eq_not, Bool.not_true,
        decide_eq_false_iff_not]
      rintro rfl
      exact n4 x hx x (by simp) rfl
  rw [e1, show A1 ++ o :: A2 = (A1 ++ [o]) ++ A2 by simp,
    show o :: (A1 ++ A2) = ([o] ++ A1) ++ A2 by simp, exchangeOf_append, exchangeOf_refl,
    exchangeOf_swap _ n1 (by simp)]
  · have : oddCount odd [o] = 0 := by simp [oddCount, he]
    rw [this]; simp
  · intro x hx hx'
    rw [List.mem_singleton] at hx'
    subst hx'
    exact n4 x hx x (by simp) rfl
  · exact List.perm_append_comm
  · exact List.Perm.refl _
  · intro x hx hx'
    rcases List.mem_append.1 hx with hx | hx
    · exact n4 x hx x (by simp [hx']) rfl
    · rw [List.mem_singleton] at hx
      subst hx
      exact n2 hx'

/-- The position with the old edge at its only place. -/
def atOld (oldName : Option ν) (p : ν → σ × ℕ) (n : ν) : σ × ℕ :=
  if n ∈ oldName then (0, 0) else p n

theorem expand_spec [CommRing α] (ce : ContractEnv σ α) (hg : GemmOk ce.gemm)
    (junk : List σ → ℕ → α) {cn : ContractNames ν} (hcn : [cn.c0, cn.c1, cn.c2].Nodup)
    {t : Tensor ν σ α} (h : WF t) (hb : t.core.blocks ≠ []) {cfg : List (Slot ν σ)}
    (hn : (cfg.map Slot.name).Nodup) (hd : ∀ s ∈ cfg, s.name ∉ t.names)
    (hi : ∀ s ∈ cfg, s.index < s.dim) (h0 : (cfg.map Slot.sym).sum = 0) {oldName : Option ν}
    (ho : ∀ o ∈ oldName, o ∈ t.names ∧ mapOf t o = [(0, 1)]) :
    ∃ r, expand ce junk cn t cfg oldName = .ok r ∧
      r.names = cfg.map Slot.name ++ others t.names oldName.toList ∧ WF r ∧
      (∀ s ∈ cfg, mapOf r s.name = [(s.sym, s.dim)] ∧
        (TatSym.isFermi σ = true → arrowValid s.edge = true → (edgeOf r s.name).arrow = s.arrow)) ∧
      (∀ n ∈ others t.names oldName.toList, mapOf r n = mapOf t n ∧
        (TatSym.isFermi σ = true → arrowValid (edgeOf t n) = true →
          (edgeOf r n).arrow = (edgeOf t n).arrow)) ∧
      ∀ p, ValidPos r p → elem r p =
        if AtSlots cfg p then elem t (atOld oldName p) else some 0 := by
  rw [expand_eq ce junk cn h cfg ho]
  set l := oldSlots t cfg oldName with hldef
  have hln : l.map Slot.name = cfg.map Slot.name ++ oldName.toList := oldSlots_names t cfg oldName
  have hot : ∀ o ∈ oldName.toList, o ∈ t.names := fun o h => (ho o (by simpa using h)).1
  have ml : ∀ s, s ∈ l ↔ s ∈ cfg ∨ ∃ o ∈ oldName, s = ⟨o, !(edgeOf t o).arrow, 0, 0, 1⟩ := by
    intro s
    rw [hldef]
    unfold oldSlots
    rw [List.mem_append, List.mem_map]
    refine or_congr Iff.rfl ⟨?_, ?_⟩
    · rintro ⟨n, h1, h2⟩; exact ⟨n, by simpa using h1, h2.symm⟩
    · rintro ⟨n, h1, h2⟩; exact ⟨n, by simpa using h1, h2.symm⟩
  have hcfgn : ∀ n ∈ cfg.map Slot.name, n ∉ t.names := by
    intro n hn'
    obtain ⟨s, hs, rfl⟩ := List.mem_map.1 hn'
    exact hd s hs
  have hnl : (l.map Slot.name).Nodup := by
    rw [hln, List.nodup_append]
    refine ⟨hn, by cases oldName <;> simp, ?_⟩
    rintro x hx y hy rfl
    exact hcfgn x hx (hot x hy)
  have h0l : (l.map Slot.sym).sum = 0 := (oldSlots_sum t cfg oldName).trans h0
  have hil : ∀ s ∈ l, s.index < s.dim := by
    intro s hs
    rcases (ml s).1 hs with hs | ⟨o, _, rfl⟩
    · exact hi s hs
    · exact Nat.one_pos
  obtain ⟨u, hu, hv⟩ := unitTensor_spec junk l (o := slotOffset l) rfl hnl h0l hil
  rw [hu]
  have hm : ∀ s ∈ l, s.name ∈ t.names → mapOf t s.name = [(-s.sym, s.dim)] ∧
      (TatSym.isFermi σ = true → (edgeOf t s.name).arrow ≠ s.arrow) := by
    intro s hs hst
    rcases (ml s).1 hs with hs | ⟨o, ho', rfl⟩
    · exact absurd hst (hd s hs)
    · exact ⟨by rw [neg_zero]; exact (ho o ho').2, fun _ => by simp⟩
  have hS : oldName.toList = t.names.filter fun n => decide (n ∈ l.map Slot.name) := by
    cases hoo : oldName with
    | none =>
      rw [List.filter_eq_nil_iff.2 fun n hn' => ?_]
      · rfl
      · rw [hln, hoo, Option.toList_none, List.append_nil, decide_eq_true_iff]
        exact fun hc => hcfgn n hc hn'
    | some o =>
      have hoin : o ∈ t.names := hot o (by rw [hoo]; simp)
      have : t.names.filter (fun n => decide (n ∈ l.map Slot.name)) =
          t.names.filter fun n => n == o := by
        refine List.filter_congr fun n hn' => ?_
        rw [Bool.eq_iff_iff, decide_eq_true_iff, hln, hoo]
        have := hcfgn n
        simp only [Option.toList_some, List.mem_append, List.mem_singleton, beq_iff_eq]
        tauto
      rw [this, List.filter_beq, List.count_eq_one_of_mem h.nodup hoin]
      rfl
  have o1 : others (l.map Slot.name) t.names = cfg.map Slot.name := by
    rw [hln]
    unfold others
    rw [List.filter_append, List.filter_eq_self.2, List.filter_eq_nil_iff.2, List.append_nil]
    · intro o ho'; simpa using hot o ho'
    · intro n hn'; exact decide_eq_true (hcfgn n hn')
  have o2 : others t.names (l.map Slot.name) = others t.names oldName.toList := by
    unfold others
    refine List.filter_congr fun n hn' => ?_
    rw [hln, decide_eq_decide, List.mem_append]
    have : n ∉ cfg.map Slot.name := fun hc => hcfgn n hc hn'
    tauto
  obtain ⟨r, e1, e2, e3, ⟨e, e4, e5⟩, e6⟩ := unit_contract ce hg hcn hv h hb hil h0l
    (fun s hs hst => ⟨by rw [(hm s hs hst).1]; simp [OMap.find?], (hm s hs hst).2⟩)
    (Or.inl fun s hs hst => by rw [(hm s hs hst).1]; rfl) hS
  rw [o1, o2] at e2
  have hun : ∀ s ∈ cfg, edgeOf u s.name = s.edge := fun s hs => hv.map ((ml s).2 (Or.inl hs))
  -- no symmetry of the edges is lost
  have hextend : ∀ q, KeyOk (mapOf t) t.names q →
      KeyOk (fun n => (e n).map) r.names (slicePos (cfg.map fun s => { s with sym := -s.sym })
        (cfg.map Slot.name) q) := by
    intro q hq
    set q' := slicePos (cfg.map fun s => { s with sym := -s.sym }) (cfg.map Slot.name) q with hq'
    have hnn : ((cfg.map fun s => { s with sym := -s.sym }).map Slot.name) = cfg.map Slot.name := by
      rw [List.map_map]; rfl
    have k1 : ∀ s ∈ cfg, q' s.name = (s.sym, s.index) := by
      intro s hs
      have := slicePos_mem (l := cfg.map fun s => { s with sym := -s.sym }) (by rw [hnn]; exact hn) q
        (s := { s with sym := -s.sym }) (List.mem_map.2 ⟨s, hs, rfl⟩)
        (names := cfg.map Slot.name) (List.mem_map.2 ⟨s, hs, rfl⟩)
      simpa using this
    have k2 : ∀ n ∈ t.names, q' n = q n := fun n hn' =>
      slicePos_not q (Or.inr fun hc => hcfgn n hc hn')
    refine ⟨fun n hn' => ?_, ?_⟩
    · dsimp only
      rw [(e5 n hn').1]
      rw [e2] at hn'
      rcases List.mem_append.1 hn' with hn' | hn'
      · obtain ⟨s, hs, rfl⟩ := List.mem_map.1 hn'
        rw [if_neg (hd s hs), hun s hs, k1 s hs]
        simp [Slot.edge, OMap.keys]
      · rw [if_pos (mem_others.1 hn').1, k2 n (mem_others.1 hn').1]
        exact hq.1 n (mem_others.1 hn').1
    · rw [e2, keyOf_append, List.sum_append]
      have s1 : keyOf (cfg.map Slot.name) q' = cfg.map Slot.sym := by
        unfold keyOf
        rw [List.map_map]
        exact List.map_congr_left fun s hs => by simp [k1 s hs]
      have s2 : (keyOf (others t.names oldName.toList) q').sum = (keyOf t.names q).sum := by
        have a1 : keyOf (others t.names oldName.toList) q' =
            keyOf (others t.names oldName.toList) q :=
          List.map_congr_left fun n hn' => by rw [k2 n (mem_others.1 hn').1]
        rw [a1]
        have hperm : t.names.Perm (others t.names oldName.toList ++ oldName.toList) := by
          refine (List.perm_ext_iff_of_nodup h.nodup ?_).2 fun n => ?_
          · rw [List.nodup_append]
            refine ⟨h.nodup.filter _, by cases oldName <;> simp, ?_⟩
            rintro x hx y hy rfl
            exact (mem_others.1 hx).2 hy
          · rw [List.mem_append, mem_others]
            have := hot n
            tauto
        have a2 : (keyOf t.names q).sum = (keyOf (others t.names oldName.toList ++
            oldName.toList) q).sum := (hperm.map _).sum_eq
        rw [a2, keyOf_append, List.sum_append]
        have a3 : (keyOf oldName.toList q).sum = 0 := by
          cases hoo : oldName with
          | none => rfl
          | some o =>
            obtain ⟨b1, b2⟩ := ho o (by rw [hoo]; rfl)
            have := hq.1 o b1
            rw [b2] at this
            simp only [OMap.keys, List.map_cons, List.map_nil, List.mem_singleton] at this
            simp [keyOf, this]
        rw [a3, add_zero]
      rw [s1, h0, zero_add, s2]
      exact hq.2
  have hedges : r.core.edges = r.names.map e := by
    rw [e4, prunedEdges_eq_iff e3.nodup]
    intro n hn' s hs
    rw [(e5 n hn').1] at hs
    have hn2 := hn'
    rw [e2] at hn2
    rcases List.mem_append.1 hn2 with hn2 | hn2
    · obtain ⟨x, hx, rfl⟩ := List.mem_map.1 hn2
      rw [if_neg (hd x hx), hun x hx] at hs
      simp only [Slot.edge, OMap.keys, List.map_cons, List.map_nil, List.mem_singleton] at hs
      obtain ⟨q, hq⟩ := exists_key_of_blocks h.shaped hb
      have := hextend q hq
      refine ⟨_, this, ?_⟩
      have h3 := this.1 x.name hn'
      dsimp only at h3
      rw [(e5 x.name hn').1, if_neg (hd x hx), hun x hx] at h3
      simp only [Slot.edge, OMap.keys, List.map_cons, List.map_nil, List.mem_singleton] at h3
      rw [h3, hs]
    · obtain ⟨a, b⟩ := mem_others.1 hn2
      rw [if_pos a] at hs
      obtain ⟨q, hq, hqs⟩ := exists_key_at h a hs
      refine ⟨_, hextend q hq, ?_⟩
      rw [slicePos_not q (Or.inr fun hc => hcfgn n hc a), hqs]
  have hme : ∀ n ∈ r.names, edgeOf r n = e n := edgeOf_unique e3 hedges
  refine ⟨r, e1, e2, e3, fun s hs => ?_, fun n hn' => ?_, fun p hp => ?_⟩
  · have hsr : s.name ∈ r.names := by
      rw [e2]; exact List.mem_append_left _ (List.mem_map_of_mem hs)
    have := e5 s.name hsr
    rw [if_neg (hd s hs), hun s hs] at this
    unfold mapOf
    rw [hme _ hsr]
    refine ⟨this.1, fun hf ha => ?_⟩
    rw [this.2 hf ha]
    simp [Slot.edge, hf]
  · have hnr : n ∈ r.names := by rw [e2]; exact List.mem_append_right _ hn'
    have := e5 n hnr
    rw [if_pos (mem_others.1 hn').1] at this
    unfold mapOf
    rw [hme _ hnr]
    exact this
  · have hp' := (validPos_iff e3).1 hp
    have hfine : FineOk (fun n => (if n ∈ t.names then edgeOf t n else edgeOf u n).map) r.names p := by
      refine ⟨fun n hn' => ?_, hp'.2⟩
      have := hp'.1 n hn'
      unfold mapOf at this
      rw [hme n hn', (e5 n hn').1] at this
      exact this
    rw [e6 p hfine]
    have hfl : (l.filter fun s => decide (s.name ∉ t.names)) = cfg := by
      rw [hldef]
      unfold oldSlots
      rw [List.filter_append, List.filter_eq_self.2, List.filter_eq_nil_iff.2, List.append_nil]
      · intro s hs
        obtain ⟨o, ho', rfl⟩ := List.mem_map.1 hs
        simpa using hot o ho'
      · intro s hs; exact decide_eq_true (hd s hs)
    rw [hfl]
    by_cases ha : AtSlots cfg p
    · rw [if_pos ha, if_pos ha]
      have hsl : slicePos l t.names p = atOld oldName p := by
        funext n
        unfold atOld
        by_cases hno : n ∈ oldName
        · have := slicePos_mem hnl p (s := ⟨n, !(edgeOf t n).arrow, 0, 0, 1⟩)
            ((ml _).2 (Or.inr ⟨n, hno, rfl⟩)) (ho n hno).1
          rw [neg_zero] at this
          rw [if_pos hno]
          exact this
        · rw [if_neg hno, slicePos_not p]
          rw [hln, List.mem_append]
          have h1 := hcfgn n
          have h2 : n ∉ oldName.toList := by simpa using hno
          tauto
      rw [hsl]
      have hval : ValidPos t (atOld oldName p) := by
        rw [validPos_iff h]
        refine ⟨fun n hn' => ?_, ?_⟩
        · unfold atOld
          by_cases hno : n ∈ oldName
          · rw [if_pos hno, (ho n hno).2]
            simp [dimM, OMap.find?]
          · rw [if_neg hno]
            have := hfine.1 n (by
              rw [e2]
              exact List.mem_append_right _ (mem_others.2 ⟨hn', by simpa using hno⟩))
            dsimp only at this
            rw [if_pos hn'] at this
            exact this
        · have hperm : t.names.Perm (others t.names oldName.toList ++ oldName.toList) := by
            refine (List.perm_ext_iff_of_nodup h.nodup ?_).2 fun n => ?_
            · rw [List.nodup_append]
              refine ⟨h.nodup.filter _, by cases oldName <;> simp, ?_⟩
              rintro x hx y hy rfl
              exact (mem_others.1 hx).2 hy
            · rw [List.mem_append, mem_others]
              have := hot n
              tauto
          have a2 : (keyOf t.names (atOld oldName p)).sum = (keyOf (others t.names oldName.toList ++
              oldName.toList) (atOld oldName p)).sum := (hperm.map _).sum_eq
          rw [a2, keyOf_append, List.sum_append]
          have a3 : (keyOf oldName.toList (atOld oldName p)).sum = 0 := by
            cases oldName with
            | none => rfl
            | some o => simp [keyOf, atOld]
          have a4 : keyOf (others t.names oldName.toList) (atOld oldName p) =
              keyOf (others t.names oldName.toList) p :=
            List.map_congr_left fun n hn' => by
              unfold atOld
              rw [if_neg fun hc => (mem_others.1 hn').2 (by simpa using hc)]
          have a5 : keyOf (cfg.map Slot.name) p = cfg.map Slot.sym := by
            unfold keyOf
            rw [List.map_map]
            exact List.map_congr_left fun s hs => by simp [ha s hs]
          have := hp'.2
          rw [e2, keyOf_append, List.sum_append, a5, h0, zero_add] at this
          rw [a3, a4, add_zero, this]
      have hsign : sliceSign t (l.map Slot.name) oldName.toList (atOld oldName p) = 1 := by
        unfold sliceSign
        split
        · cases hoo : oldName with
          | none =>
            have c1 : others (l.map Slot.name) [] = l.map Slot.name := by
              unfold others; simp
            have c2 : others t.names [] = t.names := by unfold others; simp
            rw [Option.toList_none, c1, c2, List.reverse_nil, List.append_nil, List.nil_append,
              exchangeOf_refl, exchangeOf_refl]
            simp
          | some o =>
            have hodd : oddAt (atOld (some o) p) o = false := by
              unfold oddAt atOld
              rw [if_pos (show o ∈ some o from rfl)]
              simp [TatSym.fermi_zero, oddInt]
            have hoin : o ∈ t.names := hot o (by rw [hoo]; simp)
            have c1 : others (l.map Slot.name) [o] ++ [o] = l.map Slot.name := by
              rw [hln, hoo, Option.toList_some]
              congr 1
              unfold others
              rw [List.filter_append, List.filter_eq_self.2, List.filter_eq_nil_iff.2,
                List.append_nil]
              · simp
              · intro n hn'
                refine decide_eq_true ?_
                rw [List.mem_singleton]
                rintro rfl
                exact hcfgn n hn' hoin
            rw [Option.toList_some, List.reverse_singleton, c1, exchangeOf_refl,
              List.singleton_append, exchangeOf_even h.nodup hoin hodd]
            simp [hodd]
        · rfl
      rw [hsign, one_smul, amp_valid h hval]
    · rw [if_neg ha, if_neg ha]

end TAT
