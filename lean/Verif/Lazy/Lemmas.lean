import Verif.Lazy.Spec
import Mathlib.Logic.Relation
import Mathlib.Data.List.Basic
import Mathlib.Order.Basic

/-!
# Lemmas on lazy evaluation graphs
-/

namespace TAT

variable {V : Type}

/-- The value is unique. -/
theorem LazyValue.unique {items : List (LazyItem V)} {cells : ℕ → Option (ℕ × V)} {i : ℕ} {v w : V}
    (h : LazyValue items cells i v) (h' : LazyValue items cells i w) : v = w := by
  induction h generalizing w with
  | root i id v hi hc =>
    cases h' with
    | root _ id' _ hi' hc' => rw [hc] at hc'; exact (Prod.mk.inj (Option.some.inj hc')).2
    | node _ f args vs hi' => rw [hi] at hi'; cases hi'
    | path _ f args vs hi' => rw [hi] at hi'; cases hi'
  | node i f args vs hi hl ha ih =>
    cases h' with
    | root _ id' _ hi' hc' => rw [hi] at hi'; cases hi'
    | node _ f' args' vs' hi' hl' ha' =>
      rw [hi] at hi'
      simp only [Option.some.injEq, LazyItem.node.injEq] at hi'
      obtain ⟨rfl, rfl⟩ := hi'
      congr 1
      apply List.ext_getElem?
      intro k
      by_cases hk : k < args.length
      · have e1 : vs[k]? = some vs[k] := List.getElem?_eq_getElem (by omega)
        have e2 : vs'[k]? = some vs'[k] := List.getElem?_eq_getElem (by omega)
        rw [e1, e2, ih k args[k] vs[k] (List.getElem?_eq_getElem hk) e1
          (ha' k args[k] vs'[k] (List.getElem?_eq_getElem hk) e2)]
      · rw [List.getElem?_eq_none (by omega), List.getElem?_eq_none (by omega)]
    | path _ f args vs hi' => rw [hi] at hi'; cases hi'
  | path i f args vs hi hl ha ih =>
    cases h' with
    | root _ id' _ hi' hc' => rw [hi] at hi'; cases hi'
    | path _ f' args' vs' hi' hl' ha' =>
      rw [hi] at hi'
      simp only [Option.some.injEq, LazyItem.path.injEq] at hi'
      obtain ⟨rfl, rfl⟩ := hi'
      congr 1
      apply List.ext_getElem?
      intro k
      by_cases hk : k < args.length
      · have e1 : vs[k]? = some vs[k] := List.getElem?_eq_getElem (by omega)
        have e2 : vs'[k]? = some vs'[k] := List.getElem?_eq_getElem (by omega)
        rw [e1, e2, ih k args[k] vs[k] (List.getElem?_eq_getElem hk) e1
          (ha' k args[k] vs'[k] (List.getElem?_eq_getElem hk) e2)]
      · rw [List.getElem?_eq_none (by omega), List.getElem?_eq_none (by omega)]
    | node _ f args vs hi' => rw [hi] at hi'; cases hi'

/-- The value depends only on the roots and objects in a set that has all arguments. -/
theorem LazyValue.congr {items items' : List (LazyItem V)} {cells cells' : ℕ → Option (ℕ × V)}
    {P : ℕ → Prop} (hcl : ∀ (i : ℕ) (it : LazyItem V), P i → items[i]? = some it → ∀ a ∈ it.args, P a)
    (hit : ∀ (i : ℕ) (it : LazyItem V), P i → items[i]? = some it → items'[i]? = some it)
    (hroot : ∀ i, P i → items[i]? = some .root → cells' i = cells i) {i : ℕ} {v : V} (hi : P i)
    (h : LazyValue items cells i v) : LazyValue items' cells' i v := by
  induction h with
  | root i id v h1 h2 => exact .root i id v (hit i _ hi h1) (by rw [hroot i hi h1]; exact h2)
  | node i f args vs h1 h2 ha ih =>
    exact .node i f args vs (hit i _ hi h1) h2 fun k a v hk hv =>
      ih k a v hk hv (hcl i _ hi h1 a (List.mem_of_getElem? hk))
  | path i f args vs h1 h2 ha ih =>
    exact .path i f args vs (hit i _ hi h1) h2 fun k a v hk hv =>
      ih k a v hk hv (hcl i _ hi h1 a (List.mem_of_getElem? hk))

/-- The object is a root or node with a value, or a path over such objects. -/
inductive LazyReady (items : List (LazyItem V)) (cells : ℕ → Option (ℕ × V)) : ℕ → Prop where
  | data (i : ℕ) (it : LazyItem V) (hi : items[i]? = some it) (hd : it.isData = true)
      (hc : cells i ≠ none) : LazyReady items cells i
  | path (i : ℕ) (f : List V → V) (args : List ℕ) (hi : items[i]? = some (.path f args))
      (ha : ∀ a ∈ args, LazyReady items cells a) : LazyReady items cells i

theorem LazyReady.congr {items items' : List (LazyItem V)} {cells cells' : ℕ → Option (ℕ × V)}
    {P : ℕ → Prop} (hcl : ∀ (i : ℕ) (it : LazyItem V), P i → items[i]? = some it → ∀ a ∈ it.args, P a)
    (hit : ∀ (i : ℕ) (it : LazyItem V), P i → items[i]? = some it → items'[i]? = some it)
    (hset : ∀ i, P i → cells i ≠ none → cells' i ≠ none) {i : ℕ} (hi : P i)
    (h : LazyReady items cells i) : LazyReady items' cells' i := by
  induction h with
  | data i it h1 h2 h3 => exact .data i it (hit i _ hi h1) h2 (hset i hi h3)
  | path i f args h1 ha ih =>
    exact .path i f args (hit i _ hi h1) fun a hm => ih a hm (hcl i _ hi h1 a hm)

theorem LazyReady.congr' {items items' : List (LazyItem V)} {cells cells' : ℕ → Option (ℕ × V)}
    {P : ℕ → Prop} (hcl : ∀ (i : ℕ) (it : LazyItem V), P i → items[i]? = some it → ∀ a ∈ it.args, P a)
    (hit : ∀ (i : ℕ) (it : LazyItem V), P i → items[i]? = some it → items'[i]? = some it)
    (hset : ∀ (i : ℕ) (it : LazyItem V), P i → items[i]? = some it → it.isData = true →
      cells i ≠ none → cells' i ≠ none) {i : ℕ} (hi : P i)
    (h : LazyReady items cells i) : LazyReady items' cells' i := by
  induction h with
  | data i it h1 h2 h3 => exact .data i it (hit i _ hi h1) h2 (hset i it hi h1 h2 h3)
  | path i f args h1 ha ih =>
    exact .path i f args (hit i _ hi h1) fun a hm => ih a hm (hcl i _ hi h1 a hm)

theorem LazyReady.cell {items : List (LazyItem V)} {cells : ℕ → Option (ℕ × V)} {i : ℕ}
    (h : LazyReady items cells i) {it : LazyItem V} (hi : items[i]? = some it) (hd : it.isData = true) :
    cells i ≠ none := by
  cases h with
  | data _ it' h1 h2 h3 => exact h3
  | path _ f args h1 ha => rw [hi] at h1; cases h1; cases hd

/-- The structure of the graph. -/
structure LazyWf (s : LazyState V) : Prop where
  args_lt : ∀ (i : ℕ) (it : LazyItem V), s.items[i]? = some it → ∀ a ∈ it.args, a < i
  alive_lt : ∀ i, s.alive i = true → i < s.items.length
  alive_args : ∀ (i : ℕ) (it : LazyItem V), s.items[i]? = some it → s.alive i = true → ∀ a ∈ it.args,
    s.alive a = true ∧ i ∈ s.down a
  down_args : ∀ a j, j ∈ s.down a → ∃ it, s.items[j]? = some it ∧ a ∈ it.args
  data : ∀ i, s.cells i ≠ none → ∃ it, s.items[i]? = some it ∧ it.isData = true
  graph : ∀ (i : ℕ) (it : LazyItem V), s.items[i]? = some it → it.isData = true → i ∈ s.graph
  graph_data : ∀ i ∈ s.graph, ∃ it, s.items[i]? = some it ∧ it.isData = true
  nodup : s.graph.Nodup

theorem LazyWf.graph_lt {s : LazyState V} (hw : LazyWf s) : ∀ i ∈ s.graph, i < s.items.length := by
  intro i hi
  obtain ⟨it, h, _⟩ := hw.graph_data i hi
  exact (List.getElem?_eq_some_iff.1 h).1

/-- The values of the objects in a set are right and no object has a value while an argument has none. -/
structure LazyGood (items : List (LazyItem V)) (alive : ℕ → Bool) (cells : ℕ → Option (ℕ × V))
    (G : ℕ → Bool) : Prop where
  closed : ∀ (i : ℕ) (it : LazyItem V), G i = true → items[i]? = some it → ∀ a ∈ it.args, G a = true
  dom : ∀ i, G i = true → i < items.length
  value : ∀ i f args c, G i = true → alive i = true → items[i]? = some (.node f args) →
    cells i = some c → LazyValue items cells i c.2
  ready : ∀ i f args, G i = true → alive i = true → items[i]? = some (.node f args) →
    cells i ≠ none → ∀ a ∈ args, LazyReady items cells a

/-- An existing object is entered at its argument. -/
def LazyEdge (s : LazyState V) (a j : ℕ) : Prop := s.alive j = true ∧ j ∈ s.down a

/-- Later objects that depend on an object. -/
def LazyReach (s : LazyState V) : ℕ → ℕ → Prop := Relation.ReflTransGen (LazyEdge s)

theorem lazyReach_le {s : LazyState V} (hw : LazyWf s) {i j : ℕ} (h : LazyReach s i j) : i ≤ j := by
  induction h with
  | refl => exact Nat.le_refl i
  | tail h1 h2 ih =>
    obtain ⟨it, h3, h4⟩ := hw.down_args _ _ h2.2
    have := hw.args_lt _ it h3 _ h4
    omega

theorem lazyRelease_eq (s : LazyState V) (c : ℕ → Option (ℕ × V)) (i : ℕ) :
    lazyRelease s c i = c ∨ lazyRelease s c i = Function.update c i none := by
  unfold lazyRelease
  split
  · exact Or.inl rfl
  · exact Or.inr rfl

theorem lazyRelease_none {s : LazyState V} {c : ℕ → Option (ℕ × V)} {i j : ℕ} (h : c j = none) :
    lazyRelease s c i j = none := by
  rcases lazyRelease_eq s c i with e | e <;> rw [e]
  · exact h
  · by_cases e : j = i
    · rw [e, Function.update_self]
    · rw [Function.update_of_ne e]; exact h

theorem lazyUnset_none {s : LazyState V} (fuel : ℕ) {c : ℕ → Option (ℕ × V)} {i j : ℕ} (h : c j = none) :
    lazyUnset s fuel c i j = none := by
  induction fuel generalizing c i with
  | zero => exact h
  | succ k ih =>
    unfold lazyUnset
    have : ∀ (l : List ℕ) (c : ℕ → Option (ℕ × V)), c j = none →
        l.foldl (fun c j => if s.alive j then lazyUnset s k c j else c) c j = none := by
      intro l
      induction l with
      | nil => exact fun c h => h
      | cons x l ihl =>
        intro c hc
        rw [List.foldl_cons]
        apply ihl
        split
        · exact ih hc
        · exact hc
    exact this _ _ (lazyRelease_none h)

theorem lazyUnset_other {s : LazyState V} (fuel : ℕ) {c : ℕ → Option (ℕ × V)} {i j : ℕ}
    (h : ¬ LazyReach s i j) : lazyUnset s fuel c i j = c j := by
  induction fuel generalizing c i with
  | zero => rfl
  | succ k ih =>
    unfold lazyUnset
    have hne : j ≠ i := fun e => h (e ▸ Relation.ReflTransGen.refl)
    have : ∀ (l : List ℕ) (c : ℕ → Option (ℕ × V)), (∀ x ∈ l, x ∈ s.down i) →
        l.foldl (fun c j => if s.alive j then lazyUnset s k c j else c) c j = c j := by
      intro l
      induction l with
      | nil => exact fun c h => rfl
      | cons x l ihl =>
        intro c hc
        rw [List.foldl_cons, ihl _ fun y hy => hc y (List.mem_cons_of_mem _ hy)]
        split
        · rename_i ha
          exact ih fun hr => h (Relation.ReflTransGen.head ⟨ha, hc x List.mem_cons_self⟩ hr)
        · rfl
    rw [this _ _ fun x hx => hx]
    rcases lazyRelease_eq s c i with e | e <;> rw [e]
    rw [Function.update_of_ne hne]

theorem lazyUnset_reached {s : LazyState V} (hw : LazyWf s) (fuel : ℕ) {c : ℕ → Option (ℕ × V)} {i j : ℕ}
    (hf : s.items.length ≤ fuel + i) (h : LazyReach s i j) (hi : i < s.items.length) {it : LazyItem V}
    (hj : s.items[j]? = some it) (hd : it.isData = true) : lazyUnset s fuel c i j = none := by
  induction fuel generalizing c i with
  | zero => omega
  | succ k ih =>
    unfold lazyUnset
    have hkeep : ∀ (l : List ℕ) (c : ℕ → Option (ℕ × V)), c j = none →
        l.foldl (fun c j => if s.alive j then lazyUnset s k c j else c) c j = none := by
      intro l
      induction l with
      | nil => exact fun c h => h
      | cons x l ihl =>
        intro c hc
        rw [List.foldl_cons]
        apply ihl
        split
        · exact lazyUnset_none k hc
        · exact hc
    rcases Relation.ReflTransGen.cases_head h with rfl | ⟨x, hx, hr⟩
    · apply hkeep
      unfold lazyRelease
      rw [hj]
      cases it with
      | root => exact Function.update_self _ _ _
      | node f args => exact Function.update_self _ _ _
      | path f args => cases hd
    · have hxi : i < x := by
        obtain ⟨it', h3, h4⟩ := hw.down_args _ _ hx.2
        exact hw.args_lt _ it' h3 _ h4
      have hxl := hw.alive_lt x hx.1
      have : ∀ (l : List ℕ) (c : ℕ → Option (ℕ × V)), x ∈ l →
          l.foldl (fun c j => if s.alive j then lazyUnset s k c j else c) c j = none := by
        intro l
        induction l with
        | nil => exact fun c h => by cases h
        | cons y l ihl =>
          intro c hc
          rw [List.foldl_cons]
          rcases List.mem_cons.1 hc with rfl | hc
          · apply hkeep
            rw [if_pos hx.1]
            exact ih (by omega) hr hxl
          · exact ihl _ hc
      exact this _ _ hx.2

/-- Clearing an object leaves the other roots. -/
theorem lazyUnset_root {s : LazyState V} (hw : LazyWf s) {fuel : ℕ} {c : ℕ → Option (ℕ × V)} {i j : ℕ}
    (hj : s.items[j]? = some .root) (hne : j ≠ i) : lazyUnset s fuel c i j = c j := by
  apply lazyUnset_other
  intro hre
  rcases Relation.ReflTransGen.cases_tail hre with e | ⟨k, _, h2⟩
  · exact hne e
  · obtain ⟨it, h3, h4⟩ := hw.down_args _ _ h2.2
    rw [hj] at h3
    cases h3
    cases h4

/-- An object on which a set object with a value depends has a value too. -/
theorem lazyReady_reach {s : LazyState V} (hw : LazyWf s) {G : ℕ → Bool}
    (hg : LazyGood s.items s.alive s.cells G) {i j : ℕ} (h : LazyReach s i j) (hj : G j = true)
    (haj : s.alive j = true) (hr : LazyReady s.items s.cells j) :
    LazyReady s.items s.cells i := by
  induction h with
  | refl => exact hr
  | tail h1 h2 ih =>
    rename_i k j
    obtain ⟨it, h3, h4⟩ := hw.down_args _ _ h2.2
    have hgk := hg.closed j it hj h3 k h4
    have hak := (hw.alive_args j it h3 haj k h4).1
    refine ih hgk hak ?_
    cases it with
    | root => cases h4
    | node f args => exact hg.ready j f args hj haj h3 (hr.cell h3 rfl) k h4
    | path f args =>
      cases hr with
      | data _ it' h5 h6 h7 => rw [h3] at h5; cases h5; cases h6
      | path _ f' args' h5 h6 => rw [h3] at h5; cases h5; exact h6 k h4

/-- Clearing an object without a value clears nothing that is right. -/
theorem lazyUnset_keeps {s : LazyState V} (hw : LazyWf s) {G : ℕ → Bool}
    (hg : LazyGood s.items s.alive s.cells G) {i : ℕ} {it : LazyItem V} (hi : s.items[i]? = some it)
    (hd : it.isData = true) (hc : s.cells i = none) (fuel : ℕ) {j : ℕ} (hj : G j = true)
    (haj : s.alive j = true) (hs : s.cells j ≠ none) : lazyUnset s fuel s.cells i j = s.cells j := by
  apply lazyUnset_other
  intro hr
  obtain ⟨it', h1, h2⟩ := hw.data j hs
  exact (lazyReady_reach hw hg hr hj haj (.data j it' h1 h2 hs)).cell hi hd hc

end TAT
