import Verif.Lazy.Ops

/-!
# Histories of lazy graphs
-/

namespace TAT

variable {V : Type}

/-- The value depends only on the values of the roots. -/
theorem LazyValue.congr_map {items : List (LazyItem V)} {cells cells' : ℕ → Option (ℕ × V)}
    {P : ℕ → Prop} (hcl : ∀ (i : ℕ) (it : LazyItem V), P i → items[i]? = some it → ∀ a ∈ it.args, P a)
    (hroot : ∀ i, P i → items[i]? = some .root → (cells' i).map Prod.snd = (cells i).map Prod.snd)
    {i : ℕ} {v : V} (hi : P i) (h : LazyValue items cells i v) : LazyValue items cells' i v := by
  induction h with
  | root i id v h1 h2 =>
    have h3 := hroot i hi h1
    rw [h2] at h3
    cases hc : cells' i with
    | none => rw [hc] at h3; cases h3
    | some c =>
      rw [hc] at h3
      have h4 : c.2 = v := Option.some.inj h3
      exact .root i c.1 v h1 (by rw [hc, ← h4])
  | node i f args vs h1 h2 ha ih =>
    exact .node i f args vs h1 h2 fun k a v hk hv =>
      ih k a v hk hv (hcl i _ hi h1 a (List.mem_of_getElem? hk))
  | path i f args vs h1 h2 ha ih =>
    exact .path i f args vs h1 h2 fun k a v hk hv =>
      ih k a v hk hv (hcl i _ hi h1 a (List.mem_of_getElem? hk))

/-- The state agrees with the history. -/
structure LazyMatch (s : LazyState V) (h : LazyHist V) : Prop where
  items : s.items = h.items
  roots : ∀ i, s.alive i = true → s.items[i]? = some .root → (s.cells i).map Prod.snd = h.roots i
  snaps : ∀ (k : ℕ) (snap : List (ℕ × Option (ℕ × V))), s.snaps[k]? = some snap →
    ∃ n r, h.saved[k]? = some (n, r) ∧ n ≤ s.items.length ∧ (∀ e ∈ snap, e.1 < n) ∧
      (∀ e ∈ snap, s.items[e.1]? = some .root → e.2.map Prod.snd = r e.1) ∧
      ∀ i, i < n → s.alive i = true → s.items[i]? = some .root → ∃ c, (i, c) ∈ snap
  length : h.saved.length = s.snaps.length

theorem lazyMatch_start : LazyMatch (lazyStart : LazyState V) lazyHistStart := by
  refine ⟨rfl, ?_, ?_, rfl⟩ <;> simp [lazyStart]

theorem LazyMatch.value {s : LazyState V} {h : LazyHist V} (hw : LazyWf s) (hm : LazyMatch s h) {i : ℕ}
    (ha : s.alive i = true) (v : V) : s.Value i v ↔ h.Value i v := by
  unfold LazyState.Value LazyHist.Value
  rw [← hm.items]
  have hroot : ∀ j, s.alive j = true → s.items[j]? = some .root →
      (s.cells j).map Prod.snd = ((h.roots j).map fun w => ((0 : ℕ), w)).map Prod.snd := by
    intro j h1 h2
    rw [hm.roots j h1 h2, Option.map_map]
    cases h.roots j <;> rfl
  constructor
  · exact LazyValue.congr_map (P := fun j => s.alive j = true)
      (fun j it hj hit a hma => (hw.alive_args j it hit hj a hma).1) (fun j h1 h2 => (hroot j h1 h2).symm) ha
  · exact LazyValue.congr_map (P := fun j => s.alive j = true)
      (fun j it hj hit a hma => (hw.alive_args j it hit hj a hma).1) hroot ha

/-- Making an object keeps the agreement. -/
theorem lazyMatch_append {s : LazyState V} {h : LazyHist V} (hm : LazyMatch s h)
    (x : LazyItem V) (s' : LazyState V) (h' : LazyHist V) (h1 : s'.items = s.items ++ [x])
    (h2 : h'.items = h.items ++ [x]) (h3 : s'.snaps = s.snaps) (h4 : h'.saved = h.saved)
    (h5 : s'.alive = Function.update s.alive s.items.length true)
    (h6 : ∀ i, i < s.items.length → s'.cells i = s.cells i ∧ h'.roots i = h.roots i)
    (h7 : x = .root → (s'.cells s.items.length).map Prod.snd = h'.roots s.items.length) :
    LazyMatch s' h' := by
  have hal : ∀ i, i < s.items.length → s'.alive i = s.alive i := by
    intro i hi
    rw [h5, Function.update_of_ne (by omega)]
  refine ⟨by rw [h1, h2, hm.items], ?_, ?_, by rw [h4, h3]; exact hm.length⟩
  · intro i ha hi
    rw [h1] at hi
    rcases getElem?_cases hi with ⟨g1, g2⟩ | ⟨rfl, g2⟩
    · rw [hal i g1] at ha
      rw [(h6 i g1).1, (h6 i g1).2]
      exact hm.roots i ha g2
    · exact h7 g2.symm
  · intro k snap hk
    rw [h3] at hk
    obtain ⟨n, r, g1, g2, g3, g4, g5⟩ := hm.snaps k snap hk
    refine ⟨n, r, by rw [h4]; exact g1, by rw [h1, List.length_append]; omega, g3, ?_, ?_⟩
    · intro e he hi
      have := g3 e he
      rw [h1, getElem?_old (by omega)] at hi
      exact g4 e he hi
    · intro i hi ha hr
      rw [hal i (by omega)] at ha
      rw [h1, getElem?_old (by omega)] at hr
      exact g5 i hi ha hr

theorem lazyMatch_step {s s' : LazyState V} {t : LazyTrack} {h : LazyHist V} (hv : LazyInv s t)
    (hm : LazyMatch s h) (op : LazyOp V) (hs : lazyStep s op = .ok s') : LazyMatch s' (h.step op) := by
  have hw := hv.wf
  have hlen : h.items.length = s.items.length := by rw [hm.items]
  cases op with
  | newRoot v =>
    have e := Outcome.ok.inj hs
    subst e
    refine lazyMatch_append hm .root _ _ rfl rfl rfl rfl rfl (fun i hi => ⟨?_, ?_⟩) fun _ => ?_
    · exact Function.update_of_ne (by omega) _ _
    · exact Function.update_of_ne (by omega) _ _
    · show (Function.update s.cells s.items.length (v.map fun v => (s.next, v)) s.items.length).map Prod.snd
        = Function.update h.roots h.items.length v s.items.length
      rw [hlen, Function.update_self, Function.update_self, Option.map_map]
      cases v <;> rfl
  | newNode f args =>
    simp only [lazyStep] at hs
    split at hs
    · have e := Outcome.ok.inj hs
      subst e
      exact lazyMatch_append hm (.node f args) _ _ rfl rfl rfl rfl rfl (fun i hi => ⟨rfl, rfl⟩)
        fun h => by cases h
    · cases hs
  | newPath f args =>
    simp only [lazyStep] at hs
    split at hs
    · have e := Outcome.ok.inj hs
      subst e
      exact lazyMatch_append hm (.path f args) _ _ rfl rfl rfl rfl rfl (fun i hi => ⟨rfl, rfl⟩)
        fun h => by cases h
    · cases hs
  | set i v =>
    simp only [lazyStep] at hs
    split at hs
    · rename_i hi
      split at hs
      · have e := Outcome.ok.inj hs
        subst e
        refine ⟨hm.items, ?_, hm.snaps, hm.length⟩
        intro j ha hj
        show (Function.update (lazyUnset s s.items.length s.cells i) i (some (s.next, v)) j).map Prod.snd
          = Function.update h.roots i (some v) j
        by_cases e : j = i
        · rw [e, Function.update_self, Function.update_self]; rfl
        · rw [Function.update_of_ne e, Function.update_of_ne e, lazyUnset_root hw hj e]
          exact hm.roots j ha hj
      · cases hs
    · cases hs
  | unset i =>
    simp only [lazyStep] at hs
    split at hs
    · rename_i hi
      split at hs
      · have e := Outcome.ok.inj hs
        subst e
        refine ⟨hm.items, ?_, hm.snaps, hm.length⟩
        intro j ha hj
        show (lazyUnset s s.items.length s.cells i j).map Prod.snd = Function.update h.roots i none j
        by_cases e : j = i
        · have hil := (List.getElem?_eq_some_iff.1 hi).1
          rw [e, Function.update_self, lazyUnset_reached hw _ (by omega) Relation.ReflTransGen.refl hil hi rfl]
          rfl
        · rw [Function.update_of_ne e, lazyUnset_root hw hj e]
          exact hm.roots j ha hj
      · cases hs
    · cases hs
  | get i =>
    simp only [lazyStep] at hs
    split at hs
    · rename_i ha
      cases h1 : lazyGet s i with
      | error m => rw [h1] at hs; cases hs
      | ub => rw [h1] at hs; cases hs
      | ok r =>
        rw [h1] at hs
        have e := Outcome.ok.inj hs
        subst e
        have hp := lazyGetAux_post _ s i hw hv.good ha (hw.alive_lt i ha) r.1 r.2 h1
        refine ⟨hp.items.trans hm.items, ?_, ?_, ?_⟩
        · intro j g1 g2
          rw [hp.alive] at g1
          rw [hp.items] at g2
          rw [hp.roots j g2]
          exact hm.roots j g1 g2
        · rw [hp.snaps, hp.items, hp.alive]; exact hm.snaps
        · rw [hp.snaps]; exact hm.length
    · cases hs
  | destroy i =>
    simp only [lazyStep] at hs
    split at hs
    · have e := Outcome.ok.inj hs
      subst e
      have hal : ∀ j, Function.update s.alive i false j = true → s.alive j = true := by
        intro j hj
        by_cases e : j = i
        · rw [e, Function.update_self] at hj; cases hj
        · rw [Function.update_of_ne e] at hj; exact hj
      refine ⟨hm.items, fun j g1 g2 => hm.roots j (hal j g1) g2, ?_, hm.length⟩
      intro k snap hk
      obtain ⟨n, r, g1, g2, g3, g4, g5⟩ := hm.snaps k snap hk
      exact ⟨n, r, g1, g2, g3, g4, fun j h1 h2 h3 => g5 j h1 (hal j h2) h3⟩
    · cases hs
  | dump =>
    have e := Outcome.ok.inj hs
    subst e
    refine ⟨hm.items, hm.roots, ?_, ?_⟩
    · intro k snap hk
      change (s.snaps ++ [lazyDump s])[k]? = some snap at hk
      show ∃ n r, (h.saved ++ [(h.items.length, h.roots)])[k]? = some (n, r) ∧ _
      rcases Nat.lt_or_ge k s.snaps.length with hl | hl
      · rw [List.getElem?_append_left hl] at hk
        rw [List.getElem?_append_left (by rw [hm.length]; exact hl)]
        exact hm.snaps k snap hk
      · rw [List.getElem?_append_right hl] at hk
        rw [List.getElem?_append_right (by rw [hm.length]; exact hl), hm.length]
        rcases Nat.eq_or_lt_of_le hl with e | e
        · rw [← e, Nat.sub_self] at hk ⊢
          obtain rfl := Option.some.inj hk
          refine ⟨_, _, rfl, Nat.le_of_eq hlen, ?_, ?_, ?_⟩
          · intro e he
            obtain ⟨i, hi, rfl⟩ := List.mem_map.1 he
            rw [hlen]
            exact hw.graph_lt i (List.mem_filter.1 hi).1
          · intro e he hr
            obtain ⟨i, hi, rfl⟩ := List.mem_map.1 he
            exact hm.roots i (List.mem_filter.1 hi).2 hr
          · intro i _ ha hr
            exact ⟨_, List.mem_map.2 ⟨i, List.mem_filter.2 ⟨hw.graph i _ hr rfl, ha⟩, rfl⟩⟩
        · rw [List.getElem?_eq_none (by simp only [List.length_cons, List.length_nil]; omega)] at hk
          cases hk
    · show (h.saved ++ _).length = (s.snaps ++ _).length
      rw [List.length_append, List.length_append, hm.length]
      rfl
  | load k =>
    simp only [lazyStep] at hs
    split at hs
    · rename_i snap hk
      have e := Outcome.ok.inj hs
      subst e
      refine ⟨hm.items, ?_, hm.snaps, hm.length⟩
      intro i ha hi
      obtain ⟨n, r, g1, g2, g3, g4, g5⟩ := hm.snaps k snap hk
      have hroots : (h.step (.load k)).roots i = if i < n then r i else h.roots i := by
        simp only [LazyHist.step, g1]
      rw [hroots]
      have hkl : k < t.saved.length := by rw [hv.length]; exact (List.getElem?_eq_some_iff.1 hk).1
      obtain ⟨cells0, _, q2, _, _⟩ := hv.snap k snap _ hk (List.getElem?_eq_getElem hkl)
      have hcells := lazyLoad_cells s.alive snap s.cells cells0 q2 i
      rw [show (lazyLoad s snap).cells i = _ from hcells]
      by_cases hin : i < n
      · obtain ⟨c, hc⟩ := g5 i hin ha hi
        rw [if_pos hin, if_pos ⟨ha, c, hc⟩, ← q2 _ hc]
        exact g4 _ hc hi
      · rw [if_neg hin]
        rw [if_neg (show ¬ (s.alive i = true ∧ ∃ c, (i, c) ∈ snap) from
          fun ⟨_, c, hc⟩ => hin (g3 _ hc))]
        exact hm.roots i ha hi
    · cases hs

theorem lazyMatch_run {s s' : LazyState V} {t : LazyTrack} {h : LazyHist V} (hv : LazyInv s t)
    (hm : LazyMatch s h) (ops : List (LazyOp V)) (hs : lazyRun ops s = .ok s') :
    LazyMatch s' (ops.foldl LazyHist.step h) := by
  induction ops generalizing s t h with
  | nil => obtain rfl := Outcome.ok.inj hs; exact hm
  | cons op ops ih =>
    unfold lazyRun at hs
    cases h1 : lazyStep s op with
    | error m => rw [h1] at hs; cases hs
    | ub => rw [h1] at hs; cases hs
    | ok s1 =>
      rw [h1] at hs
      exact ih (lazyInv_step hv op h1) (lazyMatch_step hv hm op h1) hs

/-- Without loading, all objects are tracked. -/
theorem lazyTrack_all (ops : List (LazyOp V)) (hn : ∀ op ∈ ops, op.isLoad = false) (t : LazyTrack)
    (ht : ∀ i, i < t.count → t.good i = true) (s s' : LazyState V) (hc : t.count = s.items.length)
    (hw : ∀ i, s.alive i = true → i < s.items.length) (hv : LazyInv s t) (hs : lazyRun ops s = .ok s') :
    ∀ i, i < (ops.foldl LazyTrack.step t).count → (ops.foldl LazyTrack.step t).good i = true := by
  induction ops generalizing s t with
  | nil => exact ht
  | cons op ops ih =>
    unfold lazyRun at hs
    cases h1 : lazyStep s op with
    | error m => rw [h1] at hs; cases hs
    | ub => rw [h1] at hs; cases hs
    | ok s1 =>
      rw [h1] at hs
      have hv1 := lazyInv_step hv op h1
      have hnew : ∀ args : List ℕ, args.all s.alive = true → ∀ i, i < t.count + 1 →
          Function.update t.good t.count (args.all t.good) i = true := by
        intro args hargs i hi
        by_cases e : i = t.count
        · rw [e, Function.update_self]
          refine List.all_eq_true.2 fun a ha => ht a ?_
          rw [hc]
          exact hw a (List.all_eq_true.1 hargs a ha)
        · rw [Function.update_of_ne e]
          exact ht i (by omega)
      refine ih (fun o ho => hn o (List.mem_cons_of_mem _ ho)) _ ?_ s1 hv1.count hv1.wf.alive_lt hv1 hs
      cases op with
      | newRoot v =>
        intro i hi
        change i < t.count + 1 at hi
        show Function.update t.good t.count true i = true
        by_cases e : i = t.count
        · rw [e, Function.update_self]
        · rw [Function.update_of_ne e]
          exact ht i (by omega)
      | newNode f args =>
        simp only [lazyStep] at h1
        split at h1
        · rename_i ha
          exact hnew args ha
        · cases h1
      | newPath f args =>
        simp only [lazyStep] at h1
        split at h1
        · rename_i ha
          exact hnew args ha
        · cases h1
      | load k => cases hn _ List.mem_cons_self
      | set i v => exact ht
      | unset i => exact ht
      | get i => exact ht
      | destroy i => exact ht
      | dump => exact ht

/-- What a history never changes. -/
structure LazyLater (s s' : LazyState V) : Prop where
  items : ∀ (i : ℕ) (it : LazyItem V), s.items[i]? = some it → s'.items[i]? = some it
  alive : ∀ i, i < s.items.length → s'.alive i = true → s.alive i = true
  snaps : ∀ (k : ℕ) (snap : List (ℕ × Option (ℕ × V))), s.snaps[k]? = some snap →
    s'.snaps[k]? = some snap

theorem LazyLater.trans {s s' s'' : LazyState V} (h : LazyLater s s') (h' : LazyLater s' s'')
    (hl : s.items.length ≤ s'.items.length) : LazyLater s s'' :=
  ⟨fun i it g => h'.items i it (h.items i it g),
    fun i g1 g2 => h.alive i g1 (h'.alive i (by omega) g2),
    fun k snap g => h'.snaps k snap (h.snaps k snap g)⟩

theorem lazyLater_append {s : LazyState V} (x : LazyItem V) (s' : LazyState V)
    (h1 : s'.items = s.items ++ [x]) (h2 : s'.alive = Function.update s.alive s.items.length true)
    (h3 : s'.snaps = s.snaps) : LazyLater s s' ∧ s.items.length ≤ s'.items.length := by
  refine ⟨⟨?_, ?_, ?_⟩, ?_⟩
  · intro i it h
    rw [h1, getElem?_old (List.getElem?_eq_some_iff.1 h).1]
    exact h
  · intro i hi h
    rwa [h2, Function.update_of_ne (by omega)] at h
  · intro k snap h
    rw [h3]
    exact h
  · rw [h1, List.length_append]
    omega

theorem lazyLater_step {s s' : LazyState V} {t : LazyTrack} (hv : LazyInv s t) (op : LazyOp V)
    (hs : lazyStep s op = .ok s') : LazyLater s s' ∧ s.items.length ≤ s'.items.length := by
  have hid : ∀ s' : LazyState V, s'.items = s.items → s'.alive = s.alive → s'.snaps = s.snaps →
      LazyLater s s' ∧ s.items.length ≤ s'.items.length := by
    intro s' h1 h2 h3
    exact ⟨⟨by rw [h1]; exact fun _ _ h => h, by rw [h2]; exact fun _ _ h => h,
      by rw [h3]; exact fun _ _ h => h⟩, by rw [h1]; exact Nat.le_refl _⟩
  cases op with
  | newRoot v =>
    have e := Outcome.ok.inj hs
    subst e
    exact lazyLater_append .root _ rfl rfl rfl
  | newNode f args =>
    simp only [lazyStep] at hs
    split at hs
    · have e := Outcome.ok.inj hs
      subst e
      exact lazyLater_append (.node f args) _ rfl rfl rfl
    · cases hs
  | newPath f args =>
    simp only [lazyStep] at hs
    split at hs
    · have e := Outcome.ok.inj hs
      subst e
      exact lazyLater_append (.path f args) _ rfl rfl rfl
    · cases hs
  | set i v =>
    simp only [lazyStep] at hs
    split at hs
    · split at hs
      · have e := Outcome.ok.inj hs
        subst e
        exact hid _ rfl rfl rfl
      · cases hs
    · cases hs
  | unset i =>
    simp only [lazyStep] at hs
    split at hs
    · split at hs
      · have e := Outcome.ok.inj hs
        subst e
        exact hid _ rfl rfl rfl
      · cases hs
    · cases hs
  | get i =>
    simp only [lazyStep] at hs
    split at hs
    · rename_i ha
      cases h1 : lazyGet s i with
      | error m => rw [h1] at hs; cases hs
      | ub => rw [h1] at hs; cases hs
      | ok r =>
        rw [h1] at hs
        have e := Outcome.ok.inj hs
        subst e
        have hp := lazyGetAux_post _ s i hv.wf hv.good ha (hv.wf.alive_lt i ha) r.1 r.2 h1
        exact hid _ hp.items hp.alive hp.snaps
    · cases hs
  | destroy i =>
    simp only [lazyStep] at hs
    split at hs
    · have e := Outcome.ok.inj hs
      subst e
      refine ⟨⟨fun _ _ h => h, ?_, fun _ _ h => h⟩, Nat.le_refl _⟩
      intro j _ hj
      change Function.update s.alive i false j = true at hj
      by_cases e : j = i
      · rw [e, Function.update_self] at hj; cases hj
      · rw [Function.update_of_ne e] at hj; exact hj
    · cases hs
  | dump =>
    have e := Outcome.ok.inj hs
    subst e
    refine ⟨⟨fun _ _ h => h, fun _ _ h => h, ?_⟩, Nat.le_refl _⟩
    intro k snap h
    show (s.snaps ++ _)[k]? = some snap
    rw [List.getElem?_append_left (List.getElem?_eq_some_iff.1 h).1]
    exact h
  | load k =>
    simp only [lazyStep] at hs
    split at hs
    · have e := Outcome.ok.inj hs
      subst e
      exact hid _ rfl rfl rfl
    · cases hs

theorem lazyLater_run {s s' : LazyState V} {t : LazyTrack} (hv : LazyInv s t) (ops : List (LazyOp V))
    (hs : lazyRun ops s = .ok s') : LazyLater s s' ∧ s.items.length ≤ s'.items.length := by
  induction ops generalizing s t with
  | nil =>
    obtain rfl := Outcome.ok.inj hs
    exact ⟨⟨fun _ _ h => h, fun _ _ h => h, fun _ _ h => h⟩, Nat.le_refl _⟩
  | cons op ops ih =>
    unfold lazyRun at hs
    cases h1 : lazyStep s op with
    | error m => rw [h1] at hs; cases hs
    | ub => rw [h1] at hs; cases hs
    | ok s1 =>
      rw [h1] at hs
      obtain ⟨h2, h3⟩ := lazyLater_step hv op h1
      obtain ⟨h4, h5⟩ := ih (lazyInv_step hv op h1) hs
      exact ⟨h2.trans h4 h3, by omega⟩

/-- A saved set stays saved. -/
theorem lazyTrack_saved (ops : List (LazyOp V)) (t : LazyTrack) (k : ℕ) (G : ℕ → Bool)
    (h : t.saved[k]? = some G) : (ops.foldl LazyTrack.step t).saved[k]? = some G := by
  induction ops generalizing t with
  | nil => exact h
  | cons op ops ih =>
    apply ih
    cases op with
    | dump =>
      show (t.saved ++ _)[k]? = some G
      rw [List.getElem?_append_left (List.getElem?_eq_some_iff.1 h).1]
      exact h
    | _ => exact h

theorem lazyRun_append (a b : List (LazyOp V)) (s : LazyState V) :
    lazyRun (a ++ b) s = (lazyRun a s).bind (lazyRun b) := by
  induction a generalizing s with
  | nil => rfl
  | cons op a ih =>
    rw [List.cons_append]
    unfold lazyRun
    cases lazyStep s op with
    | error m => rfl
    | ub => rfl
    | ok s1 => exact ih s1

end TAT
