import Verif.Lazy.Lemmas

/-!
# What reading an object does
-/

namespace TAT

variable {V : Type}

/-- What reading object `i` leaves as it was, and what it adds. -/
structure LazyPost (G : ℕ → Bool) (s s' : LazyState V) (b : ℕ) : Prop where
  items : s'.items = s.items
  down : s'.down = s.down
  alive : s'.alive = s.alive
  graph : s'.graph = s.graph
  snaps : s'.snaps = s.snaps
  wf : LazyWf s'
  good : LazyGood s.items s.alive s'.cells G
  roots : ∀ j, s.items[j]? = some .root → s'.cells j = s.cells j
  mono : ∀ j, G j = true → s.alive j = true → s.cells j ≠ none → s'.cells j = s.cells j
  above : ∀ j, b < j → s.cells j = none → s'.cells j = none

theorem LazyPost.refl {G : ℕ → Bool} {s : LazyState V} (hw : LazyWf s)
    (hg : LazyGood s.items s.alive s.cells G) (b : ℕ) : LazyPost G s s b :=
  ⟨rfl, rfl, rfl, rfl, rfl, hw, hg, fun _ _ => rfl, fun _ _ _ _ => rfl, fun _ _ h => h⟩

theorem LazyPost.trans {G : ℕ → Bool} {s s' s'' : LazyState V} {b b' : ℕ} (h : LazyPost G s s' b)
    (h' : LazyPost G s' s'' b') : LazyPost G s s'' (max b b') where
  items := h'.items.trans h.items
  down := h'.down.trans h.down
  alive := h'.alive.trans h.alive
  graph := h'.graph.trans h.graph
  snaps := h'.snaps.trans h.snaps
  wf := h'.wf
  good := by have := h'.good; rwa [h.items, h.alive] at this
  roots := fun j hj => by rw [h'.roots j (by rw [h.items]; exact hj), h.roots j hj]
  mono := fun j h1 h2 h3 => by
    rw [h'.mono j h1 (by rw [h.alive]; exact h2) (by rw [h.mono j h1 h2 h3]; exact h3), h.mono j h1 h2 h3]
  above := fun j hj hc => h'.above j (by omega) (h.above j (by omega) hc)

theorem LazyPost.weaken {G : ℕ → Bool} {s s' : LazyState V} {b b' : ℕ} (h : LazyPost G s s' b)
    (hb : b ≤ b') : LazyPost G s s' b' :=
  { h with above := fun j hj => h.above j (by omega) }

theorem LazyPost.value {G : ℕ → Bool} {s s' : LazyState V} {b : ℕ} (h : LazyPost G s s' b) (i : ℕ)
    (v : V) : s'.Value i v ↔ s.Value i v := by
  unfold LazyState.Value
  rw [h.items]
  constructor
  · exact LazyValue.congr (P := fun _ => True) (fun _ _ _ _ _ _ => trivial) (fun _ _ _ h => h)
      (fun i _ hr => (h.roots i hr).symm) trivial
  · exact LazyValue.congr (P := fun _ => True) (fun _ _ _ _ _ _ => trivial) (fun _ _ _ h => h)
      (fun i _ hr => h.roots i hr) trivial

/-- What reading an object gives. -/
def LazyReads (G : ℕ → Bool) (get : LazyState V → ℕ → Outcome (V × LazyState V)) (s : LazyState V)
    (i : ℕ) : Prop :=
  (∀ v, s.Value i v → ∃ s', get s i = .ok (v, s') ∧ LazyPost G s s' i ∧
    LazyReady s'.items s'.cells i) ∧ ((∀ v, ¬ s.Value i v) → get s i = .ub)

theorem lazyReady_mono {G : ℕ → Bool} {s s' : LazyState V} {b i : ℕ} (hw : LazyWf s)
    (hg : LazyGood s.items s.alive s.cells G) (h : LazyPost G s s' b)
    (hi : G i = true) (ha : s.alive i = true) (hr : LazyReady s.items s.cells i) :
    LazyReady s'.items s'.cells i := by
  refine LazyReady.congr (P := fun j => G j = true ∧ s.alive j = true) ?_ ?_ ?_ ⟨hi, ha⟩ hr
  · exact fun j it hj hit a hm => ⟨hg.closed j it hj.1 hit a hm, (hw.alive_args j it hit hj.2 a hm).1⟩
  · intro j it _ hit; rw [h.items]; exact hit
  · intro j hj hc; rw [h.mono j hj.1 hj.2 hc]; exact hc

theorem lazyEval_spec {G : ℕ → Bool} (get : LazyState V → ℕ → Outcome (V × LazyState V)) (b : ℕ)
    (hget : ∀ s a, LazyWf s → LazyGood s.items s.alive s.cells G → G a = true → s.alive a = true →
      a < b → LazyReads G get s a)
    (args : List ℕ) (s : LazyState V) (hw : LazyWf s) (hg : LazyGood s.items s.alive s.cells G)
    (hG : ∀ a ∈ args, G a = true) (ha : ∀ a ∈ args, s.alive a = true) (hb : ∀ a ∈ args, a < b) :
    (∀ vs : List V, vs.length = args.length →
      (∀ (k a : ℕ) (v : V), args[k]? = some a → vs[k]? = some v → s.Value a v) →
      ∃ l s', lazyEval get args s = .ok (l, s') ∧ LazyPost G s s' (b - 1) ∧ l.map Prod.fst = vs ∧
        (∀ a ∈ args, LazyReady s'.items s'.cells a) ∧
        (∀ x ∈ l, (s'.cells x.2.1).map Prod.fst = x.2.2)) ∧
    ((∃ a ∈ args, ∀ v, ¬ s.Value a v) → lazyEval get args s = .ub) := by
  induction args generalizing s with
  | nil =>
    constructor
    · intro vs hl _
      obtain rfl : vs = [] := List.length_eq_zero_iff.1 hl
      exact ⟨[], s, rfl, LazyPost.refl hw hg _, rfl, by simp, by simp⟩
    · rintro ⟨a, h, _⟩; cases h
  | cons a args ih =>
    have hGa := hG a List.mem_cons_self
    have haa := ha a List.mem_cons_self
    have hba := hb a List.mem_cons_self
    obtain ⟨hr1, hr2⟩ := hget s a hw hg hGa haa hba
    have hrest : ∀ v s1, s.Value a v → get s a = .ok (v, s1) → LazyPost G s s1 a →
        _ := fun v s1 _ _ hp => ih s1 hp.wf (by have := hp.good; rwa [← hp.items, ← hp.alive] at this)
      (fun x hx => hG x (List.mem_cons_of_mem _ hx))
      (fun x hx => by rw [hp.alive]; exact ha x (List.mem_cons_of_mem _ hx))
      (fun x hx => hb x (List.mem_cons_of_mem _ hx))
    constructor
    · intro vs hl hv
      cases vs with
      | nil => cases hl
      | cons v vs =>
        have hva := hv 0 a v rfl rfl
        obtain ⟨s1, h1, h2, h3⟩ := hr1 v hva
        obtain ⟨l, s', h4, h5, h6, h7, h8⟩ := (hrest v s1 hva h1 h2).1 vs (by simpa using hl)
          (fun k x w hk hw' => (h2.value x w).2 (hv (k + 1) x w (by simpa using hk) (by simpa using hw')))
        have hg1 : LazyGood s1.items s1.alive s1.cells G := by
          have := h2.good; rwa [← h2.items, ← h2.alive] at this
        have haa1 : s1.alive a = true := by rw [h2.alive]; exact haa
        refine ⟨(v, a, (s1.cells a).map Prod.fst) :: l, s', ?_, ?_, ?_, ?_, ?_⟩
        · unfold lazyEval
          rw [h1]
          simp only [Outcome.bind]
          rw [h4]
        · exact (h2.trans h5).weaken (by omega)
        · rw [List.map_cons, h6]
        · intro x hx
          rcases List.mem_cons.1 hx with rfl | hx
          · exact lazyReady_mono h2.wf hg1 h5 hGa haa1 h3
          · exact h7 x hx
        · intro x hx
          rcases List.mem_cons.1 hx with rfl | hx
          · show (s'.cells a).map Prod.fst = (s1.cells a).map Prod.fst
            by_cases hc : s1.cells a = none
            · have hp : s'.cells a = none := by
                by_contra hc'
                obtain ⟨it, h9, h10⟩ := h5.wf.data a hc'
                rw [h5.items] at h9
                exact h3.cell h9 h10 hc
              rw [hp, hc]
            · rw [h5.mono a hGa haa1 hc]
          · exact h8 x hx
    · rintro ⟨x, hx, hno⟩
      unfold lazyEval
      by_cases hva : ∃ v, s.Value a v
      · obtain ⟨v, hva⟩ := hva
        obtain ⟨s1, h1, h2, h3⟩ := hr1 v hva
        rw [h1]
        simp only [Outcome.bind]
        rcases List.mem_cons.1 hx with rfl | hx
        · exact absurd hva (hno v)
        · rw [(hrest v s1 hva h1 h2).2 ⟨x, hx, fun w hw' => hno w ((h2.value x w).1 hw')⟩]
      · rw [hr2 fun v hv => hva ⟨v, hv⟩]
        rfl

theorem lazyArgs_spec {G : ℕ → Bool} (get : LazyState V → ℕ → Outcome (V × LazyState V)) (b : ℕ)
    (hget : ∀ s a, LazyWf s → LazyGood s.items s.alive s.cells G → G a = true → s.alive a = true →
      a < b → LazyReads G get s a)
    (args : List ℕ) (s : LazyState V) (hw : LazyWf s) (hg : LazyGood s.items s.alive s.cells G)
    (hG : ∀ a ∈ args, G a = true) (ha : ∀ a ∈ args, s.alive a = true) (hb : ∀ a ∈ args, a < b) :
    (∀ vs : List V, vs.length = args.length →
      (∀ (k a : ℕ) (v : V), args[k]? = some a → vs[k]? = some v → s.Value a v) →
      ∃ s', lazyArgs get args s = .ok (vs, s') ∧ LazyPost G s s' (b - 1) ∧
        (∀ a ∈ args, LazyReady s'.items s'.cells a)) ∧
    ((∃ a ∈ args, ∀ v, ¬ s.Value a v) → lazyArgs get args s = .ub) := by
  obtain ⟨h1, h2⟩ := lazyEval_spec get b hget args s hw hg hG ha hb
  constructor
  · intro vs hl hv
    obtain ⟨l, s', h3, h4, h5, h6, h7⟩ := h1 vs hl hv
    refine ⟨s', ?_, h4, h6⟩
    unfold lazyArgs
    rw [h3]
    simp only [Outcome.bind]
    rw [if_pos (List.all_eq_true.2 fun x hx => decide_eq_true (h7 x hx)), h5]
  · intro h
    unfold lazyArgs
    rw [h2 h]
    rfl

/-- Values of a list of objects that all have one. -/
theorem exists_values {P : ℕ → V → Prop} (args : List ℕ) (h : ∀ a ∈ args, ∃ v, P a v) :
    ∃ vs : List V, vs.length = args.length ∧
      ∀ (k a : ℕ) (v : V), args[k]? = some a → vs[k]? = some v → P a v := by
  induction args with
  | nil => exact ⟨[], rfl, by simp⟩
  | cons a args ih =>
    obtain ⟨vs, h1, h2⟩ := ih fun x hx => h x (List.mem_cons_of_mem _ hx)
    obtain ⟨v, hv⟩ := h a List.mem_cons_self
    refine ⟨v :: vs, by simp [h1], fun k x w hk hw => ?_⟩
    cases k with
    | zero =>
      obtain rfl : a = x := by simpa using hk
      obtain rfl : v = w := by simpa using hw
      exact hv
    | succ k => exact h2 k x w (by simpa using hk) (by simpa using hw)

/-- Setting a node that has no value to its value. -/
theorem lazySet_post {G : ℕ → Bool} {s : LazyState V} (hw : LazyWf s)
    (hg : LazyGood s.items s.alive s.cells G) {i : ℕ} {f : List V → V} {args : List ℕ}
    (hi : s.items[i]? = some (.node f args)) (hc : s.cells i = none) {v : V} (hv : s.Value i v)
    (hr : ∀ a ∈ args, LazyReady s.items s.cells a) (hG : G i = true) (ha : s.alive i = true) :
    LazyPost G s (lazySet s i v) i ∧ LazyReady s.items (lazySet s i v).cells i := by
  have hil : i < s.items.length := (List.getElem?_eq_some_iff.1 hi).1
  have hkeep : ∀ j, G j = true → s.alive j = true → s.cells j ≠ none →
      (lazySet s i v).cells j = s.cells j := by
    intro j h1 h2 h3
    have hne : j ≠ i := fun e => h3 (e ▸ hc)
    simp only [lazySet]
    rw [Function.update_of_ne hne, lazyUnset_keeps hw hg hi rfl hc _ h1 h2 h3]
  have hnew : ∀ j, (lazySet s i v).cells j ≠ none → j = i ∨ s.cells j ≠ none := by
    intro j h
    by_cases e : j = i
    · exact Or.inl e
    · right
      intro h2
      simp only [lazySet] at h
      rw [Function.update_of_ne e, lazyUnset_none _ h2] at h
      exact h rfl
  have hroots : ∀ j, s.items[j]? = some .root → (lazySet s i v).cells j = s.cells j := by
    intro j hj
    have hne : j ≠ i := fun e => by rw [e, hi] at hj; cases hj
    simp only [lazySet]
    rw [Function.update_of_ne hne, lazyUnset_other]
    intro hre
    rcases Relation.ReflTransGen.cases_tail hre with e | ⟨k, _, h2⟩
    · exact hne e
    · obtain ⟨it, h3, h4⟩ := hw.down_args _ _ h2.2
      rw [hj] at h3
      cases h3
      cases h4
  have hvalue : ∀ j w, s.Value j w → LazyValue s.items (lazySet s i v).cells j w := fun j w h =>
    LazyValue.congr (P := fun _ => True) (fun _ _ _ _ _ _ => trivial) (fun _ _ _ h => h)
      (fun i _ hr => hroots i hr) trivial h
  have hready : ∀ j, G j = true → s.alive j = true → LazyReady s.items s.cells j →
      LazyReady s.items (lazySet s i v).cells j := fun j h1 h2 h3 =>
    LazyReady.congr (P := fun j => G j = true ∧ s.alive j = true)
      (fun j it hj hit a hm => ⟨hg.closed j it hj.1 hit a hm, (hw.alive_args j it hit hj.2 a hm).1⟩)
      (fun _ _ _ h => h) (fun j hj hcj => by rw [hkeep j hj.1 hj.2 hcj]; exact hcj) ⟨h1, h2⟩ h3
  have hself : (lazySet s i v).cells i = some (s.next, v) := by
    simp only [lazySet]
    exact Function.update_self _ _ _
  refine ⟨⟨rfl, rfl, rfl, rfl, rfl, ?_, ?_, hroots, hkeep, ?_⟩, ?_⟩
  · refine ⟨hw.args_lt, hw.alive_lt, hw.alive_args, hw.down_args, ?_, hw.graph, hw.graph_data, hw.nodup⟩
    intro j hj
    rcases hnew j hj with rfl | h
    · exact ⟨_, hi, rfl⟩
    · exact hw.data j h
  · refine ⟨hg.closed, hg.dom, ?_, ?_⟩
    · intro j f' args' c h1 h2 h3 h4
      by_cases e : j = i
      · rw [e, hself] at h4
        obtain rfl := Option.some.inj h4
        rw [e]
        exact hvalue i v hv
      · have h5 : s.cells j ≠ none := (hnew j (by rw [h4]; exact Option.some_ne_none _)).resolve_left e
        rw [hkeep j h1 h2 h5] at h4
        exact hvalue j _ (hg.value j f' args' c h1 h2 h3 h4)
    · intro j f' args' h1 h2 h3 h4 a hm
      have hGa := hg.closed j _ h1 h3 a hm
      have haa := (hw.alive_args j _ h3 h2 a hm).1
      apply hready a hGa haa
      by_cases e : j = i
      · rw [e, hi] at h3
        cases h3
        exact hr a hm
      · exact hg.ready j f' args' h1 h2 h3 ((hnew j h4).resolve_left e) a hm
  · intro j hj hcj
    by_contra h
    rcases hnew j h with e | e
    · omega
    · exact e hcj
  · exact .data i _ hi rfl (by rw [hself]; exact Option.some_ne_none _)

theorem lazyGetAux_spec {G : ℕ → Bool} (fuel : ℕ) (s : LazyState V) (i : ℕ) (hw : LazyWf s)
    (hg : LazyGood s.items s.alive s.cells G) (hG : G i = true) (ha : s.alive i = true)
    (hf : i < fuel) : LazyReads G (lazyGetAux fuel) s i := by
  induction fuel generalizing s i with
  | zero => omega
  | succ fuel ih =>
    have hil := hw.alive_lt i ha
    obtain ⟨it, hi⟩ : ∃ it, s.items[i]? = some it := ⟨_, List.getElem?_eq_getElem hil⟩
    have hargs : ∀ args, it.args = args → (∀ a ∈ args, G a = true) ∧ (∀ a ∈ args, s.alive a = true) ∧
        ∀ a ∈ args, a < i := by
      rintro args rfl
      exact ⟨hg.closed i it hG hi, fun a hm => (hw.alive_args i it hi ha a hm).1, hw.args_lt i it hi⟩
    have hspec := fun args => lazyArgs_spec (G := G) (lazyGetAux fuel) i
      (fun s a h1 h2 h3 h4 h5 => ih s a h1 h2 h3 h4 (by omega)) args s hw hg
    cases it with
    | root =>
      constructor
      · intro v hv
        cases hv with
        | root _ id _ h1 h2 =>
          refine ⟨s, ?_, LazyPost.refl hw hg i, .data i _ hi rfl (by rw [h2]; exact Option.some_ne_none _)⟩
          simp only [lazyGetAux, hi, h2]
        | node _ f args vs h1 => rw [hi] at h1; cases h1
        | path _ f args vs h1 => rw [hi] at h1; cases h1
      · intro hno
        cases hc : s.cells i with
        | none => simp only [lazyGetAux, hi, hc]
        | some c => exact absurd (.root i c.1 c.2 hi (by rw [hc])) (hno c.2)
    | path f args =>
      obtain ⟨g1, g2, g3⟩ := hargs args rfl
      obtain ⟨h1, h2⟩ := hspec args g1 g2 g3
      constructor
      · intro v hv
        cases hv with
        | root _ id _ h3 => rw [hi] at h3; cases h3
        | node _ f args vs h3 => rw [hi] at h3; cases h3
        | path _ f' args' vs h3 h4 h5 =>
          rw [hi] at h3
          cases h3
          obtain ⟨s', h6, h7, h8⟩ := h1 vs h4 h5
          refine ⟨s', ?_, h7.weaken (by omega), .path i f args (by rw [h7.items]; exact hi) h8⟩
          simp only [lazyGetAux, hi, h6, Outcome.bind]
      · intro hno
        by_cases hall : ∃ a ∈ args, ∀ v, ¬ s.Value a v
        · simp only [lazyGetAux, hi, h2 hall, Outcome.bind]
        · push Not at hall
          obtain ⟨vs, h3, h4⟩ := exists_values args hall
          exact absurd (.path i f args vs hi h3 h4) (hno _)
    | node f args =>
      obtain ⟨g1, g2, g3⟩ := hargs args rfl
      obtain ⟨h1, h2⟩ := hspec args g1 g2 g3
      cases hc : s.cells i with
      | some c =>
        have hcv := hg.value i f args c hG ha hi hc
        constructor
        · intro v hv
          refine ⟨s, ?_, LazyPost.refl hw hg i, .data i _ hi rfl (by rw [hc]; exact Option.some_ne_none _)⟩
          simp only [lazyGetAux, hi, hc]
          rw [LazyValue.unique hv hcv]
        · intro hno
          exact absurd hcv (hno _)
      | none =>
        constructor
        · intro v hv
          cases hv with
          | root _ id _ h3 => rw [hi] at h3; cases h3
          | path _ f args vs h3 => rw [hi] at h3; cases h3
          | node _ f' args' vs h3 h4 h5 =>
            rw [hi] at h3
            cases h3
            obtain ⟨s1, h6, h7, h8⟩ := h1 vs h4 h5
            have hg1 : LazyGood s1.items s1.alive s1.cells G := by
              have := h7.good; rwa [← h7.items, ← h7.alive] at this
            have hc1 : s1.cells i = none := by
              by_cases h0 : i = 0
              · by_contra hh
                have hemp : args = [] := by
                  cases args with
                  | nil => rfl
                  | cons a l => have := g3 a List.mem_cons_self; omega
                rw [hemp] at h6
                have : s1 = s := by
                  have e := Outcome.ok.inj h6
                  simp at e
                  exact e.2.symm
                rw [this] at hh
                exact hh hc
              · exact h7.above i (by omega) hc
            have hv1 : s1.Value i (f vs) := (h7.value i _).2 (.node i f args vs hi h4 h5)
            obtain ⟨h9, h10⟩ := lazySet_post h7.wf hg1 (by rw [h7.items]; exact hi) hc1 hv1 h8 hG
              (by rw [h7.alive]; exact ha)
            refine ⟨lazySet s1 i (f vs), ?_, (h7.trans h9).weaken (by omega), h10⟩
            simp only [lazyGetAux, hi, hc, h6, Outcome.bind]
        · intro hno
          by_cases hall : ∃ a ∈ args, ∀ v, ¬ s.Value a v
          · simp only [lazyGetAux, hi, hc, h2 hall, Outcome.bind]
          · push Not at hall
            obtain ⟨vs, h3, h4⟩ := exists_values args hall
            exact absurd (.node i f args vs hi h3 h4) (hno _)

theorem lazyGet_spec {G : ℕ → Bool} (s : LazyState V) (i : ℕ) (hw : LazyWf s)
    (hg : LazyGood s.items s.alive s.cells G) (hG : G i = true) (ha : s.alive i = true) :
    LazyReads G lazyGet s i :=
  lazyGetAux_spec s.items.length s i hw hg hG ha (hw.alive_lt i ha)

end TAT
