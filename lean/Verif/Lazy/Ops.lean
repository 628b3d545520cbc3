import Verif.Lazy.Get

/-!
# Every operation keeps the tracked objects up to date
-/

namespace TAT

variable {V : Type}

/-- Setting a node outside the set changes nothing inside it. -/
theorem lazySet_outside {G : ℕ → Bool} {s : LazyState V} (hw : LazyWf s)
    (hg : LazyGood s.items s.alive s.cells G) {i : ℕ} {f : List V → V} {args : List ℕ}
    (hi : s.items[i]? = some (.node f args)) (v : V) (hG : G i = false) :
    LazyPost G s (lazySet s i v) i := by
  have hreach : ∀ j, G j = true → ¬ LazyReach s i j := by
    intro j hj h
    induction h with
    | refl => rw [hG] at hj; cases hj
    | tail h1 h2 ih =>
      rename_i k j
      obtain ⟨it, h3, h4⟩ := hw.down_args _ _ h2.2
      exact ih (hg.closed j it hj h3 k h4)
  have hkeep : ∀ j, G j = true → (lazySet s i v).cells j = s.cells j := by
    intro j h1
    have hne : j ≠ i := fun e => by rw [e, hG] at h1; cases h1
    simp only [lazySet]
    rw [Function.update_of_ne hne, lazyUnset_other _ (hreach j h1)]
  have hnew : ∀ j, (lazySet s i v).cells j ≠ none → j = i ∨ s.cells j ≠ none := by
    intro j h
    by_cases e : j = i
    · exact Or.inl e
    · right
      intro h2
      simp only [lazySet] at h
      rw [Function.update_of_ne e, lazyUnset_none _ h2] at h
      exact h rfl
  refine ⟨rfl, rfl, rfl, rfl, rfl, ?_, ?_, ?_, fun j h _ _ => hkeep j h, ?_⟩
  · refine ⟨hw.args_lt, hw.alive_lt, hw.alive_args, hw.down_args, ?_, hw.graph, hw.graph_data, hw.nodup⟩
    intro j hj
    rcases hnew j hj with rfl | h
    · exact ⟨_, hi, rfl⟩
    · exact hw.data j h
  · refine ⟨hg.closed, hg.dom, ?_, ?_⟩
    · intro j f' args' c h1 h2 h3 h4
      rw [hkeep j h1] at h4
      exact LazyValue.congr (P := fun j => G j = true) hg.closed (fun _ _ _ h => h)
        (fun k hk _ => hkeep k hk) h1 (hg.value j f' args' c h1 h2 h3 h4)
    · intro j f' args' h1 h2 h3 h4 a hm
      rw [hkeep j h1] at h4
      exact LazyReady.congr (P := fun j => G j = true) hg.closed (fun _ _ _ h => h)
        (fun k hk h => by rw [hkeep k hk]; exact h) (hg.closed j _ h1 h3 a hm)
        (hg.ready j f' args' h1 h2 h3 h4 a hm)
  · intro j hj
    have hne : j ≠ i := fun e => by rw [e, hi] at hj; cases hj
    simp only [lazySet]
    rw [Function.update_of_ne hne, lazyUnset_other]
    intro hre
    rcases Relation.ReflTransGen.cases_tail hre with e | ⟨k, _, h2⟩
    · exact hne e
    · obtain ⟨it, h3, h4⟩ := hw.down_args _ _ h2.2
      rw [hj] at h3
      cases h3
      cases h4
  · intro j hj hcj
    by_contra h
    rcases hnew j h with e | e
    · omega
    · exact e hcj

theorem LazyPost.good' {G : ℕ → Bool} {s s' : LazyState V} {b : ℕ} (h : LazyPost G s s' b) :
    LazyGood s'.items s'.alive s'.cells G := by
  have := h.good
  rwa [← h.items, ← h.alive] at this

theorem lazyEval_post {G : ℕ → Bool} (get : LazyState V → ℕ → Outcome (V × LazyState V)) (b : ℕ)
    (hget : ∀ s a v s', LazyWf s → LazyGood s.items s.alive s.cells G → s.alive a = true →
      a < b → get s a = .ok (v, s') → LazyPost G s s' b)
    (args : List ℕ) (s s' : LazyState V) (l) (hw : LazyWf s) (hg : LazyGood s.items s.alive s.cells G)
    (ha : ∀ a ∈ args, s.alive a = true) (hb : ∀ a ∈ args, a < b)
    (h : lazyEval get args s = .ok (l, s')) : LazyPost G s s' b := by
  induction args generalizing s l with
  | nil =>
    have e := Outcome.ok.inj h
    simp only [Prod.mk.injEq] at e
    rw [← e.2]
    exact LazyPost.refl hw hg b
  | cons a args ih =>
    unfold lazyEval at h
    cases h1 : get s a with
    | error m => rw [h1] at h; cases h
    | ub => rw [h1] at h; cases h
    | ok r =>
      rw [h1] at h
      simp only [Outcome.bind] at h
      have hp := hget s a r.1 r.2 hw hg (ha a List.mem_cons_self) (hb a List.mem_cons_self) h1
      cases h2 : lazyEval get args r.2 with
      | error m => rw [h2] at h; cases h
      | ub => rw [h2] at h; cases h
      | ok q =>
        rw [h2] at h
        have e := Outcome.ok.inj h
        simp only [Prod.mk.injEq] at e
        rw [← e.2]
        have hq := ih r.2 q.1 hp.wf hp.good'
          (fun x hx => by rw [hp.alive]; exact ha x (List.mem_cons_of_mem _ hx))
          (fun x hx => hb x (List.mem_cons_of_mem _ hx)) (by rw [h2, ← e.2])
        rw [e.2]
        exact (hp.trans hq).weaken (by omega)

theorem lazyArgs_post {G : ℕ → Bool} (get : LazyState V → ℕ → Outcome (V × LazyState V)) (b : ℕ)
    (hget : ∀ s a v s', LazyWf s → LazyGood s.items s.alive s.cells G → s.alive a = true →
      a < b → get s a = .ok (v, s') → LazyPost G s s' b)
    (args : List ℕ) (s s' : LazyState V) (vs) (hw : LazyWf s) (hg : LazyGood s.items s.alive s.cells G)
    (ha : ∀ a ∈ args, s.alive a = true) (hb : ∀ a ∈ args, a < b)
    (h : lazyArgs get args s = .ok (vs, s')) : LazyPost G s s' b := by
  unfold lazyArgs at h
  cases h1 : lazyEval get args s with
  | error m => rw [h1] at h; cases h
  | ub => rw [h1] at h; cases h
  | ok r =>
    rw [h1] at h
    simp only [Outcome.bind] at h
    split at h
    · have e := Outcome.ok.inj h
      simp only [Prod.mk.injEq] at e
      rw [← e.2]
      exact lazyEval_post get b hget args s r.2 r.1 hw hg ha hb h1
    · cases h

/-- Reading any object keeps the tracked ones. -/
theorem lazyGetAux_post {G : ℕ → Bool} (fuel : ℕ) (s : LazyState V) (i : ℕ) (hw : LazyWf s)
    (hg : LazyGood s.items s.alive s.cells G) (ha : s.alive i = true) (hf : i < fuel) (v : V)
    (s' : LazyState V) (h : lazyGetAux fuel s i = .ok (v, s')) : LazyPost G s s' i := by
  induction fuel generalizing s i v s' with
  | zero => omega
  | succ fuel ih =>
    cases hG : G i with
    | true =>
      obtain ⟨h1, h2⟩ := lazyGetAux_spec (fuel + 1) s i hw hg hG ha hf
      by_cases hv : ∃ v, s.Value i v
      · obtain ⟨w, hv⟩ := hv
        obtain ⟨s1, h3, h4, _⟩ := h1 w hv
        rw [h] at h3
        have e := Outcome.ok.inj h3
        simp only [Prod.mk.injEq] at e
        rw [e.2]
        exact h4
      · rw [h2 fun v h => hv ⟨v, h⟩] at h
        cases h
    | false =>
      have hil := hw.alive_lt i ha
      obtain ⟨it, hi⟩ : ∃ it, s.items[i]? = some it := ⟨_, List.getElem?_eq_getElem hil⟩
      have hspec := fun args (hit : it.args = args) s1 vs => lazyArgs_post (G := G) (lazyGetAux fuel) i
        (fun s a v s' h1 h2 h3 h4 h5 => (ih s a h1 h2 h3 (by omega) v s' h5).weaken (by omega)) args s s1
        vs hw hg (fun a hm => (hw.alive_args i it hi ha a (by rw [hit]; exact hm)).1)
        (fun a hm => hw.args_lt i it hi a (by rw [hit]; exact hm))
      unfold lazyGetAux at h
      rw [hi] at h
      cases it with
      | root =>
        cases hc : s.cells i with
        | none => simp only [hc] at h; cases h
        | some c =>
          simp only [hc] at h
          have e := Outcome.ok.inj h
          simp only [Prod.mk.injEq] at e
          rw [← e.2]
          exact LazyPost.refl hw hg i
      | path f args =>
        simp only at h
        cases h1 : lazyArgs (lazyGetAux fuel) args s with
        | error m => rw [h1] at h; cases h
        | ub => rw [h1] at h; cases h
        | ok r =>
          rw [h1] at h
          have e := Outcome.ok.inj h
          simp only [Prod.mk.injEq] at e
          rw [← e.2]
          exact hspec args rfl r.2 r.1 h1
      | node f args =>
        cases hc : s.cells i with
        | some c =>
          simp only [hc] at h
          have e := Outcome.ok.inj h
          simp only [Prod.mk.injEq] at e
          rw [← e.2]
          exact LazyPost.refl hw hg i
        | none =>
          simp only [hc] at h
          cases h1 : lazyArgs (lazyGetAux fuel) args s with
          | error m => rw [h1] at h; cases h
          | ub => rw [h1] at h; cases h
          | ok r =>
            rw [h1] at h
            have e := Outcome.ok.inj h
            simp only [Prod.mk.injEq] at e
            rw [← e.2]
            have hp := hspec args rfl r.2 r.1 h1
            exact (hp.trans (lazySet_outside hp.wf hp.good' (by rw [hp.items]; exact hi) _ hG)).weaken
              (by omega)

/-- A recorded snapshot is consistent for the objects of a set. -/
def LazySnapOk (items : List (LazyItem V)) (alive : ℕ → Bool) (snap : List (ℕ × Option (ℕ × V)))
    (G : ℕ → Bool) : Prop :=
  ∃ cells, LazyGood items alive cells G ∧ (∀ e ∈ snap, e.2 = cells e.1) ∧
    (∀ e ∈ snap, ∃ it, items[e.1]? = some it ∧ it.isData = true) ∧
    ∀ (i : ℕ) (it : LazyItem V), G i = true → alive i = true → items[i]? = some it → it.isData = true →
      ∃ c, (i, c) ∈ snap

/-- What every history keeps. -/
structure LazyInv (s : LazyState V) (t : LazyTrack) : Prop where
  wf : LazyWf s
  count : t.count = s.items.length
  good : LazyGood s.items s.alive s.cells t.good
  length : t.saved.length = s.snaps.length
  snap : ∀ (k : ℕ) (snap : List (ℕ × Option (ℕ × V))) (G : ℕ → Bool), s.snaps[k]? = some snap →
    t.saved[k]? = some G → LazySnapOk s.items s.alive snap G

theorem lazyInv_start : LazyInv (lazyStart : LazyState V) lazyTrackStart := by
  refine ⟨⟨?_, ?_, ?_, ?_, ?_, ?_, ?_, List.nodup_nil⟩, rfl, ⟨?_, ?_, ?_, ?_⟩, rfl, ?_⟩ <;>
    simp [lazyStart, lazyTrackStart]

theorem getElem?_old {items : List (LazyItem V)} {x : LazyItem V} {i : ℕ} (h : i < items.length) :
    (items ++ [x])[i]? = items[i]? := List.getElem?_append_left h

theorem getElem?_cases {items : List (LazyItem V)} {x it : LazyItem V} {i : ℕ}
    (h : (items ++ [x])[i]? = some it) :
    (i < items.length ∧ items[i]? = some it) ∨ (i = items.length ∧ it = x) := by
  rcases Nat.lt_or_ge i items.length with hl | hl
  · rw [List.getElem?_append_left hl] at h
    exact Or.inl ⟨hl, h⟩
  · rw [List.getElem?_append_right hl] at h
    rcases Nat.eq_or_lt_of_le hl with e | e
    · rw [← e, Nat.sub_self] at h
      exact Or.inr ⟨e.symm, (Option.some.inj h).symm⟩
    · rw [List.getElem?_eq_none (by simp only [List.length_cons, List.length_nil]; omega)] at h
      cases h

/-- A set of objects stays consistent when an object is added outside it. -/
theorem lazyGood_append {items : List (LazyItem V)} {alive alive' : ℕ → Bool}
    {cells cells' : ℕ → Option (ℕ × V)} {G : ℕ → Bool} (hg : LazyGood items alive cells G)
    (x : LazyItem V) (ha : ∀ i, i < items.length → alive' i = true → alive i = true)
    (hc : ∀ i, i < items.length → cells' i = cells i) : LazyGood (items ++ [x]) alive' cells' G := by
  refine ⟨?_, ?_, ?_, ?_⟩
  · intro i it h1 h2
    rw [getElem?_old (hg.dom i h1)] at h2
    exact hg.closed i it h1 h2
  · intro i h1
    have := hg.dom i h1
    rw [List.length_append]
    omega
  · intro i f args c h1 h2 h3 h4
    have hl := hg.dom i h1
    rw [getElem?_old hl] at h3
    rw [hc i hl] at h4
    exact LazyValue.congr (P := fun i => G i = true) hg.closed
      (fun i it hi h => by rw [getElem?_old (hg.dom i hi)]; exact h) (fun i hi _ => hc i (hg.dom i hi)) h1
      (hg.value i f args c h1 (ha i hl h2) h3 h4)
  · intro i f args h1 h2 h3 h4 a hm
    have hl := hg.dom i h1
    rw [getElem?_old hl] at h3
    rw [hc i hl] at h4
    exact LazyReady.congr (P := fun i => G i = true) hg.closed
      (fun i it hi h => by rw [getElem?_old (hg.dom i hi)]; exact h)
      (fun i hi h => by rw [hc i (hg.dom i hi)]; exact h) (hg.closed i _ h1 h3 a hm)
      (hg.ready i f args h1 (ha i hl h2) h3 h4 a hm)

/-- The new object joins the set if its arguments are in it. -/
theorem lazyGood_insert {items : List (LazyItem V)} {alive' : ℕ → Bool}
    {cells' : ℕ → Option (ℕ × V)} {G : ℕ → Bool} {x : LazyItem V} {b : Bool}
    (hg : LazyGood (items ++ [x]) alive' cells' G) (hd : G items.length = false)
    (hb : b = true → ∀ a ∈ x.args, G a = true) (hn : x = .root ∨ cells' items.length = none) :
    LazyGood (items ++ [x]) alive' cells' (Function.update G items.length b) := by
  have hup : ∀ i, G i = true → Function.update G items.length b i = true := by
    intro i hi
    rw [Function.update_of_ne (fun e => by rw [e, hd] at hi; cases hi)]
    exact hi
  have hsplit : ∀ i, Function.update G items.length b i = true → G i = true ∨ (i = items.length ∧ b = true) := by
    intro i hi
    by_cases e : i = items.length
    · rw [e, Function.update_self] at hi
      exact Or.inr ⟨e, hi⟩
    · rw [Function.update_of_ne e] at hi
      exact Or.inl hi
  have hat : ∀ it : LazyItem V, (items ++ [x])[items.length]? = some it → it = x := by
    intro it h
    rcases getElem?_cases h with ⟨h1, _⟩ | ⟨_, h1⟩
    · omega
    · exact h1
  refine ⟨?_, ?_, ?_, ?_⟩
  · intro i it h1 h2 a hm
    rcases hsplit i h1 with h | ⟨rfl, hbt⟩
    · exact hup a (hg.closed i it h h2 a hm)
    · rw [hat it h2] at hm
      exact hup a (hb hbt a hm)
  · intro i h1
    rcases hsplit i h1 with h | ⟨rfl, _⟩
    · exact hg.dom i h
    · simp
  · intro i f args c h1 h2 h3 h4
    rcases hsplit i h1 with h | ⟨rfl, _⟩
    · exact hg.value i f args c h h2 h3 h4
    · rcases hn with e | e
      · rw [e] at h3
        rw [e] at hat
        cases hat _ h3
      · rw [e] at h4; cases h4
  · intro i f args h1 h2 h3 h4 a hm
    rcases hsplit i h1 with h | ⟨rfl, _⟩
    · exact hg.ready i f args h h2 h3 h4 a hm
    · rcases hn with e | e
      · rw [e] at h3
        rw [e] at hat
        cases hat _ h3
      · exact absurd e h4

theorem lazySnapOk_append {items : List (LazyItem V)} {alive alive' : ℕ → Bool}
    {snap : List (ℕ × Option (ℕ × V))} {G : ℕ → Bool} (h : LazySnapOk items alive snap G) (x : LazyItem V)
    (ha : ∀ i, i < items.length → alive' i = true → alive i = true) :
    LazySnapOk (items ++ [x]) alive' snap G := by
  obtain ⟨cells, h1, h2, h3, h4⟩ := h
  refine ⟨cells, lazyGood_append h1 x ha fun _ _ => rfl, h2, ?_, ?_⟩
  · intro e he
    obtain ⟨it, h5, h6⟩ := h3 e he
    refine ⟨it, ?_, h6⟩
    rw [getElem?_old (List.getElem?_eq_some_iff.1 h5).1]
    exact h5
  · intro i it h5 h6 h7 h8
    have hl := h1.dom i h5
    rw [getElem?_old hl] at h7
    exact h4 i it h5 (ha i hl h6) h7 h8

theorem lazyGood_alive {items : List (LazyItem V)} {alive alive' : ℕ → Bool}
    {cells : ℕ → Option (ℕ × V)} {G : ℕ → Bool} (hg : LazyGood items alive cells G)
    (ha : ∀ i, alive' i = true → alive i = true) : LazyGood items alive' cells G :=
  ⟨hg.closed, hg.dom, fun i f args c h1 h2 => hg.value i f args c h1 (ha i h2),
    fun i f args h1 h2 => hg.ready i f args h1 (ha i h2)⟩

theorem lazySnapOk_alive {items : List (LazyItem V)} {alive alive' : ℕ → Bool}
    {snap : List (ℕ × Option (ℕ × V))} {G : ℕ → Bool} (h : LazySnapOk items alive snap G)
    (ha : ∀ i, alive' i = true → alive i = true) : LazySnapOk items alive' snap G := by
  obtain ⟨cells, h1, h2, h3, h4⟩ := h
  exact ⟨cells, lazyGood_alive h1 ha, h2, h3, fun i it h5 h6 => h4 i it h5 (ha i h6)⟩

/-- The graph when an object is made. -/
theorem lazyWf_append {s : LazyState V} (hw : LazyWf s) (x : LazyItem V)
    (hx : ∀ a ∈ x.args, s.alive a = true) {cells' : ℕ → Option (ℕ × V)} {graph' : List ℕ} {next' : ℕ}
    {down' : ℕ → List ℕ}
    (hdown : ∀ a j, j ∈ down' a ↔ j ∈ s.down a ∨ (j = s.items.length ∧ a ∈ x.args))
    (hc : ∀ i, cells' i ≠ none → s.cells i ≠ none ∨ (i = s.items.length ∧ x.isData = true))
    (hgr : graph' = if x.isData then s.graph ++ [s.items.length] else s.graph) :
    LazyWf { s with items := s.items ++ [x], cells := cells', next := next', down := down',
                    alive := Function.update s.alive s.items.length true, graph := graph' } := by
  refine ⟨?_, ?_, ?_, ?_, ?_, ?_, ?_, ?_⟩ <;> dsimp only
  · intro i it h a hm
    rcases getElem?_cases h with ⟨_, h1⟩ | ⟨h1, rfl⟩
    · exact hw.args_lt i it h1 a hm
    · have := hw.alive_lt a (hx a hm)
      omega
  · intro i h
    rw [List.length_append]
    by_cases e : i = s.items.length
    · rw [e]; simp
    · rw [Function.update_of_ne e] at h
      have := hw.alive_lt i h
      omega
  · intro i it h h2 a hm
    have hup : s.alive a = true → Function.update s.alive s.items.length true a = true := by
      intro h
      by_cases e : a = s.items.length
      · rw [e, Function.update_self]
      · rw [Function.update_of_ne e]; exact h
    rcases getElem?_cases h with ⟨h1, h3⟩ | ⟨h1, rfl⟩
    · rw [Function.update_of_ne (by omega)] at h2
      obtain ⟨h4, h5⟩ := hw.alive_args i it h3 h2 a hm
      exact ⟨hup h4, (hdown a i).2 (Or.inl h5)⟩
    · exact ⟨hup (hx a hm), (hdown a i).2 (Or.inr ⟨h1, hm⟩)⟩
  · intro a j h
    rcases (hdown a j).1 h with h | ⟨rfl, h5⟩
    · obtain ⟨it, h1, h2⟩ := hw.down_args a j h
      refine ⟨it, ?_, h2⟩
      rw [getElem?_old (List.getElem?_eq_some_iff.1 h1).1]
      exact h1
    · exact ⟨x, by simp, h5⟩
  · intro i h
    rcases hc i h with h | ⟨rfl, h5⟩
    · obtain ⟨it, h1, h2⟩ := hw.data i h
      refine ⟨it, ?_, h2⟩
      rw [getElem?_old (List.getElem?_eq_some_iff.1 h1).1]
      exact h1
    · exact ⟨x, by simp, h5⟩
  · intro i it h h2
    rw [hgr]
    rcases getElem?_cases h with ⟨h1, h3⟩ | ⟨h1, rfl⟩
    · have := hw.graph i it h3 h2
      split
      · exact List.mem_append_left _ this
      · exact this
    · rw [if_pos h2, h1]
      exact List.mem_append_right _ List.mem_cons_self
  · have hold : ∀ i ∈ s.graph, ∃ it, (s.items ++ [x])[i]? = some it ∧ it.isData = true := by
      intro i h
      obtain ⟨it, h1, h2⟩ := hw.graph_data i h
      refine ⟨it, ?_, h2⟩
      rw [getElem?_old (List.getElem?_eq_some_iff.1 h1).1]
      exact h1
    intro i h
    rw [hgr] at h
    split at h
    · rename_i hd
      rcases List.mem_append.1 h with h | h
      · exact hold i h
      · rw [List.mem_singleton.1 h]
        exact ⟨x, by simp, hd⟩
    · exact hold i h
  · rw [hgr]
    split
    · rw [List.nodup_append]
      refine ⟨hw.nodup, by simp, ?_⟩
      intro a ha b hb e
      rw [List.mem_singleton] at hb
      have := hw.graph_lt a ha
      omega
    · exact hw.nodup

theorem mem_lazyLink (s : LazyState V) (args : List ℕ) (a j : ℕ) :
    j ∈ lazyLink s args a ↔ j ∈ s.down a ∨ (j = s.items.length ∧ a ∈ args) := by
  unfold lazyLink
  rw [List.mem_append, List.mem_map]
  constructor
  · rintro (h | ⟨x, h1, h2⟩)
    · exact Or.inl h
    · have h3 := List.mem_filter.1 h1
      refine Or.inr ⟨h2.symm, ?_⟩
      have := of_decide_eq_true h3.2
      rw [← this]
      exact h3.1
  · rintro (h | ⟨h1, h2⟩)
    · exact Or.inl h
    · exact Or.inr ⟨a, List.mem_filter.2 ⟨h2, by simp⟩, h1.symm⟩

/-- Making an object. -/
theorem lazyInv_append {s : LazyState V} {t : LazyTrack} (h : LazyInv s t) (x : LazyItem V) (b : Bool)
    (hx : ∀ a ∈ x.args, s.alive a = true) {cells' : ℕ → Option (ℕ × V)} {graph' : List ℕ} {next' : ℕ}
    {down' : ℕ → List ℕ}
    (hdown : ∀ a j, j ∈ down' a ↔ j ∈ s.down a ∨ (j = s.items.length ∧ a ∈ x.args))
    (hc : ∀ i, i ≠ s.items.length → cells' i = s.cells i)
    (hn : x = .root ∨ cells' s.items.length = none)
    (hgr : graph' = if x.isData then s.graph ++ [s.items.length] else s.graph)
    (hb : b = true → ∀ a ∈ x.args, t.good a = true) :
    LazyInv { s with items := s.items ++ [x], cells := cells', next := next', down := down',
                     alive := Function.update s.alive s.items.length true, graph := graph' }
      { t with count := t.count + 1, good := Function.update t.good t.count b } := by
  have hal : ∀ i, i < s.items.length → Function.update s.alive s.items.length true i = true →
      s.alive i = true := by
    intro i hi h
    rwa [Function.update_of_ne (by omega)] at h
  refine ⟨lazyWf_append h.wf x hx hdown ?_ hgr, ?_, ?_, h.length, ?_⟩
  · intro i hi
    by_cases e : i = s.items.length
    · right
      refine ⟨e, ?_⟩
      rcases hn with h1 | h1
      · rw [h1]; rfl
      · rw [e] at hi; exact absurd h1 hi
    · rw [hc i e] at hi
      exact Or.inl hi
  · show t.count + 1 = (s.items ++ [x]).length
    rw [List.length_append, h.count]
    rfl
  · dsimp only
    rw [h.count]
    apply lazyGood_insert _ _ hb hn
    · exact lazyGood_append h.good x hal fun i hi => hc i (by omega)
    · cases hG : t.good s.items.length with
      | false => rfl
      | true => have := h.good.dom _ hG; omega
  · intro k snap G h1 h2
    exact lazySnapOk_append (h.snap k snap G h1 h2) x hal

/-- Changing a root. -/
theorem lazyGood_root {s : LazyState V} {G : ℕ → Bool} (hw : LazyWf s)
    (hg : LazyGood s.items s.alive s.cells G) {i : ℕ} (hi : s.items[i]? = some .root)
    (cells' : ℕ → Option (ℕ × V))
    (hc : ∀ j, j ≠ i → cells' j = lazyUnset s s.items.length s.cells i j) :
    LazyGood s.items s.alive cells' G ∧ ∀ j, cells' j ≠ none → j = i ∨ s.cells j ≠ none := by
  have hil := (List.getElem?_eq_some_iff.1 hi).1
  have hcase : ∀ j (it : LazyItem V), s.items[j]? = some it → it.isData = true → j ≠ i →
      (LazyReach s i j ∧ cells' j = none) ∨ (¬ LazyReach s i j ∧ cells' j = s.cells j) := by
    intro j it h1 h2 h3
    rw [hc j h3]
    by_cases hr : LazyReach s i j
    · exact Or.inl ⟨hr, lazyUnset_reached hw _ (by omega) hr hil h1 h2⟩
    · exact Or.inr ⟨hr, lazyUnset_other _ hr⟩
  have hcl : ∀ (j : ℕ) (it : LazyItem V), (s.alive j = true ∧ ¬ LazyReach s i j) →
      s.items[j]? = some it → ∀ a ∈ it.args, s.alive a = true ∧ ¬ LazyReach s i a := by
    intro j it hj hit a hm
    obtain ⟨h1, h2⟩ := hw.alive_args j it hit hj.1 a hm
    exact ⟨h1, fun hr => hj.2 (Relation.ReflTransGen.tail hr ⟨hj.1, h2⟩)⟩
  have hsame : ∀ j, ¬ LazyReach s i j → cells' j = s.cells j := by
    intro j hr
    have hne : j ≠ i := fun e => hr (e ▸ Relation.ReflTransGen.refl)
    rw [hc j hne, lazyUnset_other _ hr]
  refine ⟨⟨hg.closed, hg.dom, ?_, ?_⟩, ?_⟩
  · intro j f args c h1 h2 h3 h4
    have hne : j ≠ i := fun e => by rw [e, hi] at h3; cases h3
    rcases hcase j _ h3 rfl hne with ⟨_, h5⟩ | ⟨h5, h6⟩
    · rw [h5] at h4; cases h4
    · rw [h6] at h4
      exact LazyValue.congr (P := fun j => s.alive j = true ∧ ¬ LazyReach s i j) hcl (fun _ _ _ h => h)
        (fun k hk _ => hsame k hk.2) ⟨h2, h5⟩ (hg.value j f args c h1 h2 h3 h4)
  · intro j f args h1 h2 h3 h4 a hm
    have hne : j ≠ i := fun e => by rw [e, hi] at h3; cases h3
    rcases hcase j _ h3 rfl hne with ⟨_, h5⟩ | ⟨h5, h6⟩
    · exact absurd h5 h4
    · rw [h6] at h4
      exact LazyReady.congr (P := fun j => s.alive j = true ∧ ¬ LazyReach s i j) hcl (fun _ _ _ h => h)
        (fun k hk h => by rw [hsame k hk.2]; exact h) (hcl j _ ⟨h2, h5⟩ h3 a hm)
        (hg.ready j f args h1 h2 h3 h4 a hm)
  · intro j h
    by_cases e : j = i
    · exact Or.inl e
    · refine Or.inr fun h2 => h ?_
      rw [hc j e, lazyUnset_none _ h2]

theorem lazyInv_root {s : LazyState V} {t : LazyTrack} (h : LazyInv s t) {i : ℕ}
    (hi : s.items[i]? = some .root) (cells' : ℕ → Option (ℕ × V)) (next' : ℕ)
    (hc : ∀ j, j ≠ i → cells' j = lazyUnset s s.items.length s.cells i j) :
    LazyInv { s with cells := cells', next := next' } t := by
  obtain ⟨h1, h2⟩ := lazyGood_root h.wf h.good hi cells' hc
  have hw := h.wf
  refine ⟨⟨hw.args_lt, hw.alive_lt, hw.alive_args, hw.down_args, ?_, hw.graph, hw.graph_data, hw.nodup⟩,
    h.count, h1, h.length, h.snap⟩
  intro j hj
  rcases h2 j hj with rfl | h3
  · exact ⟨_, hi, rfl⟩
  · exact hw.data j h3

open Classical in
/-- Loading writes the recorded cells of existing objects and nothing else. -/
theorem lazyLoad_cells (alive : ℕ → Bool) (snap : List (ℕ × Option (ℕ × V)))
    (cells cells0 : ℕ → Option (ℕ × V)) (hs : ∀ e ∈ snap, e.2 = cells0 e.1) (i : ℕ) :
    snap.foldl (fun c e => if alive e.1 then Function.update c e.1 e.2 else c) cells i =
      if alive i = true ∧ (∃ c, (i, c) ∈ snap) then cells0 i else cells i := by
  induction snap generalizing cells with
  | nil => simp
  | cons e snap ih =>
    rw [List.foldl_cons, ih _ fun x hx => hs x (List.mem_cons_of_mem _ hx)]
    have he := hs e List.mem_cons_self
    by_cases ha : alive i = true
    · by_cases hm : ∃ c, (i, c) ∈ snap
      · rw [if_pos ⟨ha, hm⟩, if_pos ⟨ha, hm.elim fun c h => ⟨c, List.mem_cons_of_mem _ h⟩⟩]
      · rw [if_neg fun h => hm h.2]
        by_cases e1 : e.1 = i
        · rw [if_pos (show alive i = true ∧ ∃ c, (i, c) ∈ e :: snap from
            ⟨ha, e.2, by rw [← e1]; exact List.mem_cons_self⟩), e1, if_pos ha, Function.update_self, he, e1]
        · have hneg : ¬ (alive i = true ∧ ∃ c, (i, c) ∈ e :: snap) := by
            rintro ⟨_, c, h⟩
            rcases List.mem_cons.1 h with h | h
            · exact e1 (by rw [← h])
            · exact hm ⟨c, h⟩
          rw [if_neg hneg]
          split
          · rw [Function.update_of_ne fun h => e1 h.symm]
          · rfl
    · have hneg : ∀ p, ¬ (alive i = true ∧ p) := fun p h => ha h.1
      rw [if_neg (hneg _), if_neg (hneg _)]
      split
      · rename_i h1
        rw [Function.update_of_ne]
        intro h
        rw [h] at ha
        exact ha h1
      · rfl

theorem lazyInv_step {s s' : LazyState V} {t : LazyTrack} (h : LazyInv s t) (op : LazyOp V)
    (hs : lazyStep s op = .ok s') : LazyInv s' (t.step op) := by
  have hnone : ∀ i, s.items.length ≤ i → s.cells i = none := by
    intro i hi
    by_contra hc
    obtain ⟨it, h1, _⟩ := h.wf.data i hc
    rw [List.getElem?_eq_none hi] at h1
    cases h1
  cases op with
  | newRoot v =>
    have e := Outcome.ok.inj hs
    subst e
    exact lazyInv_append h .root true (by simp [LazyItem.args]) (by simp [LazyItem.args])
      (fun i hi => Function.update_of_ne hi _ _) (Or.inl rfl) rfl (by simp [LazyItem.args])
  | newNode f args =>
    simp only [lazyStep] at hs
    split at hs
    · rename_i hall
      have e := Outcome.ok.inj hs
      subst e
      exact lazyInv_append h (.node f args) (args.all t.good) (List.all_eq_true.1 hall)
        (mem_lazyLink s args) (fun _ _ => rfl) (Or.inr (hnone _ (Nat.le_refl _))) rfl
        (fun hb => List.all_eq_true.1 hb)
    · cases hs
  | newPath f args =>
    simp only [lazyStep] at hs
    split at hs
    · rename_i hall
      have e := Outcome.ok.inj hs
      subst e
      exact lazyInv_append h (.path f args) (args.all t.good) (List.all_eq_true.1 hall)
        (mem_lazyLink s args) (fun _ _ => rfl) (Or.inr (hnone _ (Nat.le_refl _))) rfl
        (fun hb => List.all_eq_true.1 hb)
    · cases hs
  | set i v =>
    simp only [lazyStep] at hs
    split at hs
    · rename_i hi
      split at hs
      · have e := Outcome.ok.inj hs
        subst e
        exact lazyInv_root h hi _ _ fun j hj => Function.update_of_ne hj _ _
      · cases hs
    · cases hs
  | unset i =>
    simp only [lazyStep] at hs
    split at hs
    · rename_i hi
      split at hs
      · have e := Outcome.ok.inj hs
        subst e
        exact lazyInv_root h hi _ _ fun j hj => rfl
      · cases hs
    · cases hs
  | get i =>
    simp only [lazyStep] at hs
    split at hs
    · rename_i ha
      cases h1 : lazyGet s i with
      | error m => rw [h1] at hs; cases hs
      | ub => rw [h1] at hs; cases hs
      | ok r =>
        rw [h1] at hs
        have e := Outcome.ok.inj hs
        subst e
        have hp := lazyGetAux_post _ s i h.wf h.good ha (h.wf.alive_lt i ha) r.1 r.2 h1
        refine ⟨hp.wf, ?_, hp.good', ?_, ?_⟩
        · rw [hp.items]; exact h.count
        · rw [hp.snaps]; exact h.length
        · rw [hp.snaps, hp.items, hp.alive]; exact h.snap
    · cases hs
  | destroy i =>
    simp only [lazyStep] at hs
    split at hs
    · rename_i hall
      have e := Outcome.ok.inj hs
      subst e
      have hal : ∀ j, Function.update s.alive i false j = true → s.alive j = true ∧ j ≠ i := by
        intro j hj
        by_cases e : j = i
        · rw [e, Function.update_self] at hj; cases hj
        · rw [Function.update_of_ne e] at hj; exact ⟨hj, e⟩
      have hw := h.wf
      refine ⟨⟨hw.args_lt, fun j hj => hw.alive_lt j (hal j hj).1, ?_, hw.down_args, hw.data, hw.graph,
        hw.graph_data, hw.nodup⟩, h.count, lazyGood_alive h.good fun j hj => (hal j hj).1, h.length,
        fun k snap G h1 h2 => lazySnapOk_alive (h.snap k snap G h1 h2) fun j hj => (hal j hj).1⟩
      intro j it h1 h2 a hm
      obtain ⟨h3, h4⟩ := hw.alive_args j it h1 (hal j h2).1 a hm
      refine ⟨?_, h4⟩
      show Function.update s.alive i false a = true
      have hne : a ≠ i := by
        rintro rfl
        have h5 := List.all_eq_true.1 hall.2 j (List.mem_range.2 (hw.alive_lt j (hal j h2).1))
        rw [(hal j h2).1, h1] at h5
        have h6 : it.args.contains a = true := List.contains_iff_mem.2 hm
        simp only [Option.map_some, Option.getD_some, h6] at h5
        cases h5
      rw [Function.update_of_ne hne]
      exact h3
    · cases hs
  | dump =>
    have e := Outcome.ok.inj hs
    subst e
    have hw := h.wf
    refine ⟨⟨hw.args_lt, hw.alive_lt, hw.alive_args, hw.down_args, hw.data, hw.graph,
      hw.graph_data, hw.nodup⟩, h.count, h.good, ?_, ?_⟩
    · show (t.saved ++ [t.good]).length = (s.snaps ++ [lazyDump s]).length
      rw [List.length_append, List.length_append, h.length]
      rfl
    · intro k snap G h1 h2
      change (s.snaps ++ [lazyDump s])[k]? = some snap at h1
      change (t.saved ++ [t.good])[k]? = some G at h2
      rcases Nat.lt_or_ge k s.snaps.length with hk | hk
      · rw [List.getElem?_append_left hk] at h1
        rw [List.getElem?_append_left (by rw [h.length]; exact hk)] at h2
        exact h.snap k snap G h1 h2
      · rw [List.getElem?_append_right hk] at h1
        rw [List.getElem?_append_right (by rw [h.length]; exact hk), h.length] at h2
        rcases Nat.eq_or_lt_of_le hk with e | e
        · rw [← e, Nat.sub_self] at h1 h2
          obtain rfl := Option.some.inj h1
          obtain rfl := Option.some.inj h2
          refine ⟨s.cells, h.good, ?_, ?_, ?_⟩
          · intro e he
            obtain ⟨i, _, rfl⟩ := List.mem_map.1 he
            rfl
          · intro e he
            obtain ⟨i, hi, rfl⟩ := List.mem_map.1 he
            exact h.wf.graph_data i (List.mem_filter.1 hi).1
          · intro i it _ h4 h5 h6
            exact ⟨_, List.mem_map.2 ⟨i, List.mem_filter.2 ⟨hw.graph i it h5 h6, h4⟩, rfl⟩⟩
        · rw [List.getElem?_eq_none (by simp only [List.length_cons, List.length_nil]; omega)] at h1
          cases h1
  | load k =>
    simp only [lazyStep] at hs
    split at hs
    · rename_i snap hk
      have e := Outcome.ok.inj hs
      subst e
      have hkl : k < t.saved.length := by rw [h.length]; exact (List.getElem?_eq_some_iff.1 hk).1
      have hG : t.saved[k]? = some t.saved[k] := List.getElem?_eq_getElem hkl
      obtain ⟨cells0, h1, h2, h3, h4⟩ := h.snap k snap _ hk hG
      have hcells := lazyLoad_cells s.alive snap s.cells cells0 h2
      have hw := h.wf
      have hstep : (t.step (.load k : LazyOp V)) = { t with good := t.saved[k] } := by
        simp only [LazyTrack.step, hG, Option.getD_some]
      rw [hstep]
      have hsame : ∀ (i : ℕ) (it : LazyItem V), t.saved[k] i = true → s.alive i = true →
          s.items[i]? = some it → it.isData = true → (lazyLoad s snap).cells i = cells0 i :=
        fun i it g1 g2 g3 g4 => by
          refine (hcells i).trans ?_
          rw [if_pos ⟨g2, h4 i it g1 g2 g3 g4⟩]
      have hcl : ∀ (j : ℕ) (it : LazyItem V), (t.saved[k] j = true ∧ s.alive j = true) →
          s.items[j]? = some it → ∀ a ∈ it.args, t.saved[k] a = true ∧ s.alive a = true :=
        fun j it hj hit a hm => ⟨h1.closed j it hj.1 hit a hm, (hw.alive_args j it hit hj.2 a hm).1⟩
      refine ⟨⟨hw.args_lt, hw.alive_lt, hw.alive_args, hw.down_args, ?_, hw.graph,
        hw.graph_data, hw.nodup⟩, h.count, ⟨h1.closed, h1.dom, ?_, ?_⟩, h.length, h.snap⟩
      · intro i hi
        by_cases hm : s.alive i = true ∧ ∃ c, (i, c) ∈ snap
        · obtain ⟨c, hc⟩ := hm.2
          exact h3 _ hc
        · refine hw.data i fun hn => hi ?_
          refine (hcells i).trans ?_
          rw [if_neg hm, hn]
      · intro i f args c g1 g2 g3 g4
        rw [hsame i _ g1 g2 g3 rfl] at g4
        exact LazyValue.congr (P := fun i => t.saved[k] i = true ∧ s.alive i = true) hcl
          (fun _ _ _ h => h) (fun j hj hr => hsame j _ hj.1 hj.2 hr rfl) ⟨g1, g2⟩
          (h1.value i f args c g1 g2 g3 g4)
      · intro i f args g1 g2 g3 g4 a hm
        rw [hsame i _ g1 g2 g3 rfl] at g4
        refine LazyReady.congr' (P := fun i => t.saved[k] i = true ∧ s.alive i = true) hcl
          (fun _ _ _ h => h) (fun j it hj hr hd h => ?_) (hcl i _ ⟨g1, g2⟩ g3 a hm)
          (h1.ready i f args g1 g2 g3 g4 a hm)
        rw [hsame j it hj.1 hj.2 hr hd]
        exact h
    · cases hs

theorem lazyInv_run {s s' : LazyState V} {t : LazyTrack} (h : LazyInv s t) (ops : List (LazyOp V))
    (hs : lazyRun ops s = .ok s') : LazyInv s' (ops.foldl LazyTrack.step t) := by
  induction ops generalizing s t with
  | nil => obtain rfl := Outcome.ok.inj hs; exact h
  | cons op ops ih =>
    unfold lazyRun at hs
    cases h1 : lazyStep s op with
    | error m => rw [h1] at hs; cases hs
    | ub => rw [h1] at hs; cases hs
    | ok s1 =>
      rw [h1] at hs
      exact ih (lazyInv_step h op h1) hs

end TAT
