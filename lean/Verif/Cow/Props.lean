import Verif.Cow.Model
import Mathlib.Data.List.Basic

/-!
# Property C13: copy-on-write isolation
-/

namespace TAT.Cow

variable {N C : Type}

/-! ## Specification: every handle owns its own value -/

/-- The values of the handles, without any sharing. -/
abbrev Values (N C : Type) := List (Option (N × C))

/-- The value of handle `h`. -/
def value (v : Values N C) (h : ℕ) : Option (N × C) := (v[h]?).join

/-- Value semantics of the events. -/
def stepValue (v : Values N C) : Event N C → Values N C
  | .create names core => v ++ [some (names, core)]
  | .copy h => match value v h with
    | none => v
    | some x => v ++ [some x]
  | .rename h f => match value v h with
    | none => v
    | some x => v ++ [some (f x.1, x.2)]
  | .deepCopy h => match value v h with
    | none => v
    | some x => v ++ [some x]
  | .destroy h => match value v h with
    | none => v
    | some _ => v.set h none
  | .assign h h' => match value v h, value v h' with
    | some _, some x => v.set h (some x)
    | _, _ => v
  | .update h f => match value v h with
    | none => v
    | some x => v.set h (some (x.1, f x.2))
  | .combine h h' f => match value v h, value v h' with
    | some x, some y => v.set h (some (x.1, f x.2 y.2))
    | _, _ => v
  | .load h names core => match value v h with
    | none => v
    | some _ => v.set h (some (names, core))

/-- What the handles of a state refer to. -/
def view (st : State N C) : Values N C :=
  st.handles.map fun o => o.bind fun x => (content st.cells x.2).map fun y => (x.1, y.2)

/-- The handle points to address `a`. -/
def pointsTo (a : ℕ) (o : Option (N × ℕ)) : Bool := (o.map fun x => decide (x.2 = a)).getD false

/-- The number of live handles pointing to `a`. -/
def owners (st : State N C) (a : ℕ) : ℕ := st.handles.countP (pointsTo a)

/-- The invariant: a cell exists exactly while it has owners, and then its count is their number. -/
def Inv (st : State N C) : Prop :=
  ∀ a, (owners st a = 0 ∧ content st.cells a = none) ∨
    (∃ n c, content st.cells a = some (n, c) ∧ n = owners st a ∧ 0 < n)

/-! ## Lemmas on cells -/

theorem content_set (cells : List (Option (ℕ × C))) (a b : ℕ) (x : Option (ℕ × C))
    (ha : a < cells.length) :
    content (cells.set a x) b = if b = a then x else content cells b := by
  unfold content
  rw [List.getElem?_set]
  by_cases h : a = b
  · subst h; simp [ha]
  · rw [if_neg h, if_neg (Ne.symm h)]

theorem content_lt {cells : List (Option (ℕ × C))} {a : ℕ} {x : ℕ × C}
    (h : content cells a = some x) : a < cells.length := by
  unfold content at h
  by_contra hc
  rw [List.getElem?_eq_none (by omega)] at h
  simp at h

theorem content_alloc (cells : List (Option (ℕ × C))) (c : C) (b : ℕ) :
    content (alloc cells c) b = if b = cells.length then some (1, c) else content cells b := by
  unfold content alloc
  rw [List.getElem?_append]
  split
  · rename_i h
    rw [if_neg (by omega)]
  · rename_i h
    split
    · rename_i h'; subst h'; simp
    · rw [List.getElem?_eq_none (by simp; omega), List.getElem?_eq_none (by omega)]

theorem content_some_iff {cells : List (Option (ℕ × C))} {a : ℕ} {x : ℕ × C} :
    content cells a = some x ↔ cells[a]? = some (some x) := by
  unfold content
  cases cells[a]? with
  | none => simp
  | some y => simp

theorem content_acquire {cells : List (Option (ℕ × C))} {a : ℕ} {n : ℕ} {c : C}
    (h : content cells a = some (n, c)) (b : ℕ) :
    content (acquire cells a) b = if b = a then some (n + 1, c) else content cells b := by
  unfold acquire
  rw [content_some_iff.1 h]
  exact content_set _ _ _ _ (content_lt h)

theorem content_release {cells : List (Option (ℕ × C))} {a : ℕ} {n : ℕ} {c : C}
    (h : content cells a = some (n, c)) (b : ℕ) :
    content (release cells a) b =
      if b = a then (if n = 1 then none else some (n - 1, c)) else content cells b := by
  unfold release
  rw [content_some_iff.1 h]
  exact content_set _ _ _ _ (content_lt h)

/-! ## Lemmas on handles -/

theorem handle_lt {st : State N C} {h : ℕ} {x : N × ℕ} (hh : handle st h = some x) :
    h < st.handles.length := by
  unfold handle at hh
  by_contra hc
  rw [List.getElem?_eq_none (by omega)] at hh
  simp at hh

theorem handle_getElem {st : State N C} {h : ℕ} {x : N × ℕ} (hh : handle st h = some x) :
    st.handles[h]'(handle_lt hh) = some x := by
  unfold handle at hh
  rw [List.getElem?_eq_getElem (handle_lt hh)] at hh
  simpa using hh

theorem countP_set (l : List (Option (N × ℕ))) (h : ℕ) (hl : h < l.length)
    (x : Option (N × ℕ)) (p : Option (N × ℕ) → Bool) :
    (l.set h x).countP p + (if p l[h] then 1 else 0) = l.countP p + (if p x then 1 else 0) := by
  induction l generalizing h with
  | nil => simp at hl
  | cons y l ih =>
    cases h with
    | zero =>
      simp only [List.set_cons_zero, List.countP_cons, List.getElem_cons_zero]
      omega
    | succ h =>
      simp only [List.set_cons_succ, List.countP_cons, List.getElem_cons_succ]
      have := ih h (by simpa using hl)
      omega

theorem owners_pos {st : State N C} {h : ℕ} {x : N × ℕ} (hh : handle st h = some x) :
    0 < owners st x.2 := by
  unfold owners
  rw [List.countP_pos_iff]
  exact ⟨some x, by rw [← handle_getElem hh]; exact List.getElem_mem _, by simp [pointsTo]⟩

/-- Under the invariant a live handle has a core. -/
theorem Inv.live {st : State N C} (hi : Inv st) {h : ℕ} {x : N × ℕ} (hh : handle st h = some x) :
    ∃ n c, content st.cells x.2 = some (n, c) ∧ n = owners st x.2 ∧ 0 < n := by
  rcases hi x.2 with h1 | h1
  · have := owners_pos hh; omega
  · exact h1

theorem view_length (st : State N C) : (view st).length = st.handles.length := by simp [view]

theorem value_view (st : State N C) (h : ℕ) :
    value (view st) h =
      (handle st h).bind fun x => (content st.cells x.2).map fun y => (x.1, y.2) := by
  unfold value view handle
  rw [List.getElem?_map]
  cases st.handles[h]? with
  | none => rfl
  | some o => cases o <;> simp

theorem handle_ne_of_owners {st : State N C} {h k : ℕ} {x y : N × ℕ} (hx : handle st h = some x)
    (hy : handle st k = some y) (ho : owners st x.2 = 1) (hne : h ≠ k) : y.2 ≠ x.2 := by
  intro heq
  have h1 := countP_set st.handles h (handle_lt hx) none (pointsTo x.2)
  rw [handle_getElem hx] at h1
  have e1 : pointsTo x.2 (some x) = true := by simp [pointsTo]
  have e2 : pointsTo x.2 (none : Option (N × ℕ)) = false := rfl
  rw [e1, e2] at h1
  have h2 : 0 < (st.handles.set h none).countP (pointsTo x.2) := by
    rw [List.countP_pos_iff]
    refine ⟨some y, ?_, by simp [pointsTo, heq]⟩
    rw [← handle_getElem hy]
    have hk := handle_lt hy
    rw [List.mem_iff_getElem]
    exact ⟨k, by simpa using hk, by rw [List.getElem_set_ne hne]⟩
  unfold owners at ho
  simp at h1
  omega

/-- Two value lists are equal if all values agree. -/
theorem values_ext {v w : Values N C} (hl : v.length = w.length)
    (h : ∀ k, value v k = value w k) : v = w := by
  apply List.ext_getElem hl
  intro i h1 h2
  have := h i
  unfold value at this
  rw [List.getElem?_eq_getElem h1, List.getElem?_eq_getElem h2] at this
  simpa using this

theorem value_set (v : Values N C) (h k : ℕ) (x : Option (N × C)) (hl : h < v.length) :
    value (v.set h x) k = if k = h then x else value v k := by
  unfold value
  rw [List.getElem?_set]
  by_cases e : h = k
  · subst e; simp [hl]
  · rw [if_neg e, if_neg (Ne.symm e)]

theorem value_append (v : Values N C) (x : Option (N × C)) (k : ℕ) :
    value (v ++ [x]) k = if k = v.length then x else value v k := by
  unfold value
  rw [List.getElem?_append]
  split
  · rw [if_neg (by omega)]
  · split
    · rename_i h; subst h; simp
    · rw [List.getElem?_eq_none (by simp; omega), List.getElem?_eq_none (by omega)]

theorem handle_append (cells : List (Option (ℕ × C))) (hs : List (Option (N × ℕ)))
    (x : Option (N × ℕ)) (k : ℕ) :
    handle ⟨cells, hs ++ [x]⟩ k =
      if k = hs.length then x else handle (⟨cells, hs⟩ : State N C) k := by
  unfold handle
  simp only
  rw [List.getElem?_append]
  split
  · rw [if_neg (by omega)]
  · split
    · rename_i h; subst h; simp
    · rw [List.getElem?_eq_none (by simp; omega), List.getElem?_eq_none (by omega)]

theorem handle_set (cells : List (Option (ℕ × C))) (hs : List (Option (N × ℕ)))
    (x : Option (N × ℕ)) (h k : ℕ) (hl : h < hs.length) :
    handle ⟨cells, hs.set h x⟩ k =
      if k = h then x else handle (⟨cells, hs⟩ : State N C) k := by
  unfold handle
  simp only
  rw [List.getElem?_set]
  by_cases e : h = k
  · subst e; simp [hl]
  · rw [if_neg e, if_neg (Ne.symm e)]

theorem owners_append (cells : List (Option (ℕ × C))) (hs : List (Option (N × ℕ))) (names : N)
    (a b : ℕ) :
    owners (⟨cells, hs ++ [some (names, a)]⟩ : State N C) b =
      hs.countP (pointsTo b) + if b = a then 1 else 0 := by
  unfold owners
  simp only [List.countP_append, List.countP_singleton, pointsTo, Option.map_some,
    Option.getD_some]
  by_cases h : a = b
  · simp [h]
  · simp [h, Ne.symm h]

/-! ## The elementary state changes -/

/-- Appending a handle that points to a fresh cell. -/
theorem fresh_handle {st : State N C} (hi : Inv st) (names : N) (c : C) :
    let st' : State N C := ⟨alloc st.cells c, st.handles ++ [some (names, st.cells.length)]⟩
    Inv st' ∧ view st' = view st ++ [some (names, c)] := by
  intro st'
  have hfresh : content st.cells st.cells.length = none := by
    unfold content; rw [List.getElem?_eq_none (Nat.le_refl _)]; rfl
  have ho : owners st st.cells.length = 0 := by
    rcases hi st.cells.length with h | ⟨n, c', h, _⟩
    · exact h.1
    · rw [hfresh] at h; cases h
  refine ⟨?_, ?_⟩
  · intro a
    have e1 := owners_append (alloc st.cells c) st.handles names st.cells.length a
    have e2 := content_alloc st.cells c a
    change (owners st' a = 0 ∧ content (alloc st.cells c) a = none) ∨
      ∃ n c', content (alloc st.cells c) a = some (n, c') ∧ n = owners st' a ∧ 0 < n
    rw [e2, show owners st' a = _ from e1]
    by_cases h : a = st.cells.length
    · subst h
      right
      unfold owners at ho
      simp [ho]
    · simp only [if_neg h, Nat.add_zero]
      exact hi a
  · apply values_ext
    · simp [st', view_length]
    · intro k
      rw [value_view, value_append, view_length]
      have := handle_append (alloc st.cells c) st.handles (some (names, st.cells.length)) k
      rw [show handle st' k = _ from this]
      by_cases hk : k = st.handles.length
      · rw [if_pos hk, if_pos hk]
        simp only [Option.bind_some]
        change (content (alloc st.cells c) st.cells.length).map _ = _
        rw [content_alloc, if_pos rfl]; rfl
      · rw [if_neg hk, if_neg hk, value_view]
        change (handle st k).bind _ = _
        cases hh : handle st k with
        | none => rfl
        | some x =>
          simp only [Option.bind_some]
          change (content (alloc st.cells c) x.2).map _ = _
          rw [content_alloc, if_neg]
          intro heq
          have := owners_pos hh
          rw [heq] at this
          omega

/-- Appending a handle that shares a core. -/
theorem share_handle {st : State N C} (hi : Inv st) {h : ℕ} {x : N × ℕ} (hh : handle st h = some x)
    (names : N) :
    let st' : State N C := ⟨acquire st.cells x.2, st.handles ++ [some (names, x.2)]⟩
    Inv st' ∧ ∃ c, value (view st) h = some (x.1, c) ∧ view st' = view st ++ [some (names, c)] := by
  intro st'
  obtain ⟨n, c, hc, hn, hpos⟩ := hi.live hh
  refine ⟨?_, c, ?_, ?_⟩
  · intro a
    change (owners st' a = 0 ∧ content (acquire st.cells x.2) a = none) ∨
      ∃ n c', content (acquire st.cells x.2) a = some (n, c') ∧ n = owners st' a ∧ 0 < n
    rw [content_acquire hc,
      show owners st' a = _ from owners_append (acquire st.cells x.2) st.handles names x.2 a]
    by_cases h' : a = x.2
    · subst h'
      right
      refine ⟨n + 1, c, by simp, ?_, by omega⟩
      rw [hn]; simp [owners]
    · simp only [if_neg h', Nat.add_zero]
      exact hi a
  · rw [value_view, hh]; simp [hc]
  · apply values_ext
    · simp [st', view_length]
    · intro k
      rw [value_view, value_append, view_length]
      have := handle_append (acquire st.cells x.2) st.handles (some (names, x.2)) k
      rw [show handle st' k = _ from this]
      by_cases hk : k = st.handles.length
      · rw [if_pos hk, if_pos hk]
        simp only [Option.bind_some]
        change (content (acquire st.cells x.2) x.2).map _ = _
        rw [content_acquire hc, if_pos rfl]; rfl
      · rw [if_neg hk, if_neg hk, value_view]
        change (handle st k).bind _ = _
        cases hh' : handle st k with
        | none => rfl
        | some y =>
          simp only [Option.bind_some]
          change (content (acquire st.cells x.2) y.2).map _ = _
          rw [content_acquire hc]
          split
          · rename_i heq; rw [heq, hc]; rfl
          · rfl

/-- Redirecting handle `h` to a cell after the old core was released: `cells1` is the heap with the
new owner already counted. -/
theorem redirect {st : State N C} (hi : Inv st) {h : ℕ} {x : N × ℕ} (hh : handle st h = some x)
    (new : Option (N × ℕ)) (cells1 : List (Option (ℕ × C)))
    (hcore : ∀ a c, (∃ n, content st.cells a = some (n, c)) → ∃ n, content cells1 a = some (n, c))
    (hcount : ∀ a, (owners st a + (if pointsTo a new then 1 else 0) = 0 ∧
        content cells1 a = none) ∨
      (∃ n c, content cells1 a = some (n, c) ∧
        n = owners st a + (if pointsTo a new then 1 else 0) ∧ 0 < n))
    (v : Option (N × C))
    (hv : v = new.bind fun y => (content cells1 y.2).map fun z => (y.1, z.2)) :
    let st' : State N C := ⟨release cells1 x.2, st.handles.set h new⟩
    Inv st' ∧ view st' = (view st).set h v := by
  intro st'
  have hl := handle_lt hh
  obtain ⟨n0, c0, hc0, _, hpos⟩ := hi.live hh
  obtain ⟨n, hc⟩ := hcore x.2 c0 ⟨n0, hc0⟩
  have hcnt : ∀ a, owners st' a + (if a = x.2 then 1 else 0) =
      owners st a + (if pointsTo a new then 1 else 0) := by
    intro a
    have := countP_set st.handles h hl new (pointsTo a)
    rw [handle_getElem hh] at this
    have e : pointsTo a (some x) = decide (a = x.2) := by
      simp only [pointsTo, Option.map_some, Option.getD_some]
      exact decide_eq_decide.2 eq_comm
    rw [e] at this
    by_cases h' : a = x.2
    · simp only [h', decide_true, if_true] at this ⊢
      exact this
    · simp only [h', decide_false, Bool.false_eq_true, if_false] at this ⊢
      exact this
  have hn : n = owners st x.2 + (if pointsTo x.2 new then 1 else 0) := by
    rcases hcount x.2 with ⟨_, h2⟩ | ⟨m, c', h1, h2, _⟩
    · rw [hc] at h2; cases h2
    · rw [hc] at h1
      cases h1
      exact h2
  refine ⟨?_, ?_⟩
  · intro a
    change (owners st' a = 0 ∧ content (release cells1 x.2) a = none) ∨
      ∃ n c', content (release cells1 x.2) a = some (n, c') ∧ n = owners st' a ∧ 0 < n
    rw [content_release hc]
    have h1 := hcnt a
    by_cases h' : a = x.2
    · subst h'
      simp only [if_true] at h1 ⊢
      by_cases h2 : n = 1
      · left; rw [if_pos h2]; exact ⟨by omega, rfl⟩
      · right
        rw [if_neg h2]
        refine ⟨n - 1, c0, rfl, by omega, ?_⟩
        have := owners_pos hh
        omega
    · simp only [if_neg h', Nat.add_zero] at h1 ⊢
      rw [h1]
      exact hcount a
  · apply values_ext
    · simp [st', view_length]
    · intro k
      rw [value_view, value_set _ _ _ _ (by rw [view_length]; exact hl)]
      rw [show handle st' k = _ from handle_set (release cells1 x.2) st.handles new h k hl]
      have live' : ∀ (y : N × ℕ), 0 < owners st' y.2 →
          (content (release cells1 x.2) y.2).map (fun z => (y.1, z.2)) =
            (content cells1 y.2).map fun z => (y.1, z.2) := by
        intro y hy
        rw [content_release hc]
        by_cases h' : y.2 = x.2
        · rw [if_pos h', if_neg]
          · rw [h', hc]; rfl
          · have := hcnt y.2
            rw [if_pos h', h'] at this
            rw [h'] at hy
            omega
        · rw [if_neg h']
      by_cases hk : k = h
      · rw [if_pos hk, if_pos hk, hv]
        cases new with
        | none => rfl
        | some y =>
          simp only [Option.bind_some]
          apply live'
          have : handle st' h = some y := by
            rw [show handle st' h = _ from handle_set (release cells1 x.2) st.handles (some y) h h hl,
              if_pos rfl]
          exact owners_pos this
      · rw [if_neg hk, if_neg hk, value_view]
        change (handle st k).bind _ = _
        cases hh' : handle st k with
        | none => rfl
        | some y =>
          simp only [Option.bind_some]
          have hy : handle st' k = some y := by
            rw [show handle st' k = _ from handle_set (release cells1 x.2) st.handles new h k hl,
              if_neg hk]
            exact hh'
          rw [show content st'.cells y.2 = content (release cells1 x.2) y.2 from rfl,
            live' y (owners_pos hy)]
          obtain ⟨m, c, hm, _⟩ := hi.live hh'
          obtain ⟨m', hm'⟩ := hcore y.2 c ⟨m, hm⟩
          rw [hm, hm']; rfl

theorem fresh_counts {st : State N C} (hi : Inv st) (names : N) (c : C) :
    (∀ a d, (∃ n, content st.cells a = some (n, d)) →
      ∃ n, content (alloc st.cells c) a = some (n, d)) ∧
    (∀ a, (owners st a + (if pointsTo a (some (names, st.cells.length)) then 1 else 0) = 0 ∧
        content (alloc st.cells c) a = none) ∨
      (∃ n d, content (alloc st.cells c) a = some (n, d) ∧
        n = owners st a + (if pointsTo a (some (names, st.cells.length)) then 1 else 0) ∧
        0 < n)) := by
  have hfresh : content st.cells st.cells.length = none := by
    unfold content; rw [List.getElem?_eq_none (Nat.le_refl _)]; rfl
  have ho : owners st st.cells.length = 0 := by
    rcases hi st.cells.length with h | ⟨n, c', h, _⟩
    · exact h.1
    · rw [hfresh] at h; cases h
  refine ⟨?_, ?_⟩
  · rintro a d ⟨n, h⟩
    refine ⟨n, ?_⟩
    rw [content_alloc, if_neg]
    · exact h
    · intro heq; rw [heq, hfresh] at h; cases h
  · intro a
    rw [content_alloc]
    by_cases h : a = st.cells.length
    · right
      exact ⟨1, c, by simp [h], by simp [pointsTo, h, ho], by omega⟩
    · have : pointsTo a (some (names, st.cells.length)) = false := by
        simp [pointsTo, Ne.symm h]
      rw [this, if_neg h]
      simpa using hi a

/-- After `ensureUnique` the values are unchanged and the handle is the only owner. -/
theorem ensureUnique_spec {st : State N C} (hi : Inv st) {h : ℕ} {x : N × ℕ}
    (hh : handle st h = some x) :
    Inv (ensureUnique st h) ∧ view (ensureUnique st h) = view st ∧
    ∃ y, handle (ensureUnique st h) h = some y ∧ owners (ensureUnique st h) y.2 = 1 := by
  obtain ⟨n, c, hc, hn, hpos⟩ := hi.live hh
  unfold ensureUnique
  rw [hh]
  simp only [hc]
  by_cases h1 : n = 1
  · rw [if_neg (by simpa using h1)]
    exact ⟨hi, rfl, x, hh, by omega⟩
  · rw [if_pos (by simpa using h1)]
    obtain ⟨f1, f2⟩ := fresh_counts hi x.1 c
    obtain ⟨r1, r2⟩ := redirect hi hh (some (x.1, st.cells.length)) (alloc st.cells c) f1 f2
      (some (x.1, c)) (by simp [content_alloc])
    refine ⟨r1, ?_, (x.1, st.cells.length), ?_, ?_⟩
    · rw [r2]
      apply values_ext (by simp)
      intro k
      rw [value_set _ _ _ _ (by rw [view_length]; exact handle_lt hh)]
      split
      · rename_i hk
        rw [hk, value_view, hh]; simp [hc]
      · rfl
    · rw [handle_set _ _ _ _ _ (handle_lt hh), if_pos rfl]
    · have hlt := content_lt hc
      rcases r1 st.cells.length with ⟨_, h3⟩ | ⟨m, d, h3, h4, h5⟩
      · change content (release (alloc st.cells c) x.2) st.cells.length = none at h3
        rw [content_release (n := n) (c := c), if_neg (by omega), content_alloc, if_pos rfl] at h3
        · cases h3
        · rw [content_alloc, if_neg (by omega)]; exact hc
      · change content (release (alloc st.cells c) x.2) st.cells.length = some (m, d) at h3
        rw [content_release (n := n) (c := c), if_neg (by omega), content_alloc, if_pos rfl] at h3
        · cases h3; exact h4.symm
        · rw [content_alloc, if_neg (by omega)]; exact hc

/-- Writing through the only owner changes that value only. -/
theorem modify_spec {st : State N C} (hi : Inv st) {h : ℕ} {x : N × ℕ} (hh : handle st h = some x)
    (ho : owners st x.2 = 1) (f : C → C) :
    Inv (modify st h f) ∧ ∃ c, value (view st) h = some (x.1, c) ∧
      view (modify st h f) = (view st).set h (some (x.1, f c)) := by
  obtain ⟨n, c, hc, hn, hpos⟩ := hi.live hh
  have hm : modify st h f = { st with cells := st.cells.set x.2 (some (n, f c)) } := by
    unfold modify; rw [hh]; simp only [hc]
  have hcs : ∀ b, content (st.cells.set x.2 (some (n, f c))) b =
      if b = x.2 then some (n, f c) else content st.cells b :=
    fun b => content_set _ _ _ _ (content_lt hc)
  rw [hm]
  refine ⟨?_, c, ?_, ?_⟩
  · intro a
    change (owners st a = 0 ∧ content (st.cells.set x.2 (some (n, f c))) a = none) ∨
      ∃ m d, content (st.cells.set x.2 (some (n, f c))) a = some (m, d) ∧ m = owners st a ∧ 0 < m
    rw [hcs]
    by_cases h' : a = x.2
    · right; exact ⟨n, f c, by simp [h'], by rw [h']; exact hn, hpos⟩
    · rw [if_neg h']; exact hi a
  · rw [value_view, hh]; simp [hc]
  · apply values_ext
    · simp [view_length]
    · intro k
      rw [value_view, value_set _ _ _ _ (by rw [view_length]; exact handle_lt hh)]
      change (handle st k).bind _ = _
      by_cases hk : k = h
      · subst hk
        rw [hh, if_pos rfl]
        simp only [Option.bind_some, hcs, if_true, Option.map_some]
      · rw [if_neg hk, value_view]
        cases hh' : handle st k with
        | none => rfl
        | some y =>
          have := handle_ne_of_owners hh hh' ho (Ne.symm hk)
          simp only [Option.bind_some, hcs, if_neg this]

theorem value_view_isSome {st : State N C} (hi : Inv st) (h : ℕ) :
    (value (view st) h = none ↔ handle st h = none) := by
  rw [value_view]
  cases hh : handle st h with
  | none => simp
  | some x =>
    obtain ⟨n, c, hc, _⟩ := hi.live hh
    simp [hc]

theorem coreOf_eq (st : State N C) (h : ℕ) : coreOf st h = (value (view st) h).map Prod.snd := by
  rw [value_view, coreOf]
  cases handle st h with
  | none => rfl
  | some x => simp [Function.comp_def]

/-- C13, one step: the reference-counted heap behaves like independent values. -/
theorem C13_step (st : State N C) (hi : Inv st) (ev : Event N C) :
    Inv (step st ev) ∧ view (step st ev) = stepValue (view st) ev := by
  cases ev with
  | create names core => exact fresh_handle hi names core
  | copy h =>
    cases hh : handle st h with
    | none => simp [step, stepValue, hh, (value_view_isSome hi h).2 hh, hi]
    | some x =>
      obtain ⟨h1, c, h2, h3⟩ := share_handle hi hh x.1
      simp only [step, stepValue, hh, h2]
      exact ⟨h1, h3⟩
  | rename h f =>
    cases hh : handle st h with
    | none => simp [step, stepValue, hh, (value_view_isSome hi h).2 hh, hi]
    | some x =>
      obtain ⟨h1, c, h2, h3⟩ := share_handle hi hh (f x.1)
      simp only [step, stepValue, hh, h2]
      exact ⟨h1, h3⟩
  | deepCopy h =>
    cases hh : handle st h with
    | none => simp [step, stepValue, hh, (value_view_isSome hi h).2 hh, hi]
    | some x =>
      obtain ⟨n, c, hc, _⟩ := hi.live hh
      have hv : value (view st) h = some (x.1, c) := by rw [value_view, hh]; simp [hc]
      have hco : coreOf st h = some c := by rw [coreOf_eq, hv]; rfl
      obtain ⟨h1, h2⟩ := fresh_handle hi x.1 c
      simp only [step, stepValue, hh, hv, hco]
      exact ⟨h1, h2⟩
  | destroy h =>
    cases hh : handle st h with
    | none => simp [step, stepValue, hh, (value_view_isSome hi h).2 hh, hi]
    | some x =>
      obtain ⟨n, c, hc, _⟩ := hi.live hh
      have hv : value (view st) h = some (x.1, c) := by rw [value_view, hh]; simp [hc]
      obtain ⟨h1, h2⟩ := redirect hi hh none st.cells (fun _ _ h => h)
        (by intro a; simpa [pointsTo] using hi a) none rfl
      simp only [step, stepValue, hh, hv]
      exact ⟨h1, h2⟩
  | assign h h' =>
    cases hh : handle st h with
    | none => simp [step, stepValue, hh, (value_view_isSome hi h).2 hh, hi]
    | some x =>
      obtain ⟨n, c, hc, _⟩ := hi.live hh
      have hv : value (view st) h = some (x.1, c) := by rw [value_view, hh]; simp [hc]
      cases hh' : handle st h' with
      | none => simp [step, stepValue, hh, hh', hv, (value_view_isSome hi h').2 hh', hi]
      | some y =>
        obtain ⟨n', c', hc', hn', hpos'⟩ := hi.live hh'
        have hv' : value (view st) h' = some (y.1, c') := by rw [value_view, hh']; simp [hc']
        obtain ⟨h1, h2⟩ := redirect hi hh (some y) (acquire st.cells y.2)
          (by
            rintro a d ⟨m, hm⟩
            rw [content_acquire hc']
            split
            · rename_i heq
              rw [heq, hc'] at hm
              cases hm
              exact ⟨n' + 1, rfl⟩
            · exact ⟨m, hm⟩)
          (by
            intro a
            rw [content_acquire hc']
            by_cases heq : a = y.2
            · right
              refine ⟨n' + 1, c', by simp [heq], ?_, by omega⟩
              simp [pointsTo, heq, hn']
            · have : pointsTo a (some y) = false := by simp [pointsTo, Ne.symm heq]
              rw [this, if_neg heq]
              simpa using hi a)
          (some (y.1, c')) (by simp [content_acquire hc'])
        simp only [step, stepValue, hh, hh', hv, hv']
        exact ⟨h1, h2⟩
  | update h f =>
    cases hh : handle st h with
    | none =>
      have : ensureUnique st h = st := by unfold ensureUnique; rw [hh]
      simp only [step, stepValue, (value_view_isSome hi h).2 hh, this]
      unfold modify
      rw [hh]
      exact ⟨hi, rfl⟩
    | some x =>
      obtain ⟨h1, h2, y, h3, h4⟩ := ensureUnique_spec hi hh
      obtain ⟨h5, c, h6, h7⟩ := modify_spec h1 h3 h4 f
      rw [h2] at h6 h7
      simp only [step, stepValue, h6]
      exact ⟨h5, h7⟩
  | combine h h' f =>
    cases hh : handle st h with
    | none =>
      have e : ensureUnique st h = st := by unfold ensureUnique; rw [hh]
      simp only [step, stepValue, (value_view_isSome hi h).2 hh, e]
      cases coreOf st h' with
      | none => exact ⟨hi, rfl⟩
      | some c' =>
        simp only
        unfold modify
        rw [hh]
        exact ⟨hi, rfl⟩
    | some x =>
      obtain ⟨h1, h2, y, h3, h4⟩ := ensureUnique_spec hi hh
      have hco : coreOf (ensureUnique st h) h' = (value (view st) h').map Prod.snd := by
        rw [coreOf_eq, h2]
      cases hv' : value (view st) h' with
      | none =>
        obtain ⟨n, c, hc, _⟩ := hi.live hh
        have hv : value (view st) h = some (x.1, c) := by rw [value_view, hh]; simp [hc]
        simp only [step, stepValue, hco, hv', hv, Option.map_none]
        exact ⟨hi, trivial⟩
      | some z =>
        obtain ⟨h5, c, h6, h7⟩ := modify_spec h1 h3 h4 (fun c => f c z.2)
        rw [h2] at h6 h7
        simp only [step, stepValue, h6, hco, hv', Option.map_some]
        exact ⟨h5, h7⟩
  | load h names core =>
    cases hh : handle st h with
    | none => simp [step, stepValue, hh, (value_view_isSome hi h).2 hh, hi]
    | some x =>
      obtain ⟨n, c, hc, _⟩ := hi.live hh
      have hv : value (view st) h = some (x.1, c) := by rw [value_view, hh]; simp [hc]
      obtain ⟨f1, f2⟩ := fresh_counts hi names core
      obtain ⟨h1, h2⟩ := redirect hi hh (some (names, st.cells.length)) (alloc st.cells core) f1 f2
        (some (names, core)) (by simp [content_alloc])
      simp only [step, stepValue, hh, hv]
      exact ⟨h1, h2⟩

theorem init_inv : Inv (State.init : State N C) := by
  intro a; left; exact ⟨rfl, rfl⟩

/-- C13: for every history, what the handles refer to is exactly what they would hold if every
handle owned an independent value. -/
theorem C13_value_semantics (evs : List (Event N C)) :
    view (evs.foldl step State.init) = evs.foldl stepValue [] := by
  have : ∀ (evs : List (Event N C)) (st : State N C), Inv st →
      Inv (evs.foldl step st) ∧ view (evs.foldl step st) = evs.foldl stepValue (view st) := by
    intro evs
    induction evs with
    | nil => intro st h; exact ⟨h, rfl⟩
    | cons ev evs ih =>
      intro st h
      obtain ⟨h1, h2⟩ := C13_step st h ev
      have := ih _ h1
      rw [h2] at this
      exact this
  exact (this evs State.init init_inv).2

/-- C13: in every reachable state an in-place modification through one handle leaves the value of
every other handle unchanged. -/
theorem C13_isolation (evs : List (Event N C)) (h k : ℕ) (hk : k ≠ h) (f : C → C) (g : C → C → C)
    (h' : ℕ) :
    let st := evs.foldl step State.init
    value (view (step st (.update h f))) k = value (view st) k ∧
    value (view (step st (.combine h h' g))) k = value (view st) k := by
  intro st
  have hinv : Inv st := by
    have : ∀ (evs : List (Event N C)) (st : State N C), Inv st → Inv (evs.foldl step st) := by
      intro evs
      induction evs with
      | nil => intro st h; exact h
      | cons ev evs ih => intro st h; exact ih _ (C13_step st h ev).1
    exact this evs _ init_inv
  have key : ∀ (v : Values N C) x, value (v.set h x) k = value v k := by
    intro v x
    unfold value
    rw [List.getElem?_set_ne (Ne.symm hk)]
  refine ⟨?_, ?_⟩
  · rw [(C13_step st hinv _).2]
    simp only [stepValue]
    split
    · rfl
    · exact key _ _
  · rw [(C13_step st hinv _).2]
    simp only [stepValue]
    split
    · exact key _ _
    · rfl

/-- C13: no core is leaked and none is freed while in use: in every reachable state a cell is
allocated exactly if some live handle refers to it. -/
theorem C13_no_leak (evs : List (Event N C)) (a : ℕ) :
    let st := evs.foldl step State.init
    (content st.cells a).isSome ↔ ∃ h x, handle st h = some x ∧ x.2 = a := by
  intro st
  have hinv : Inv st := by
    have : ∀ (evs : List (Event N C)) (st : State N C), Inv st → Inv (evs.foldl step st) := by
      intro evs
      induction evs with
      | nil => intro st h; exact h
      | cons ev evs ih => intro st h; exact ih _ (C13_step st h ev).1
    exact this evs _ init_inv
  constructor
  · intro hs
    rcases hinv a with ⟨_, h2⟩ | ⟨n, c, h1, h2, h3⟩
    · rw [h2] at hs; simp at hs
    · rw [h2] at h3
      unfold owners at h3
      rw [List.countP_pos_iff] at h3
      obtain ⟨o, ho, hp⟩ := h3
      obtain ⟨i, hi, rfl⟩ := List.mem_iff_getElem.1 ho
      cases hx : st.handles[i] with
      | none => rw [hx] at hp; simp [pointsTo] at hp
      | some x =>
        rw [hx] at hp
        refine ⟨i, x, ?_, by simpa [pointsTo] using hp⟩
        unfold handle
        rw [List.getElem?_eq_getElem hi, hx]; rfl
  · rintro ⟨h, x, hx, rfl⟩
    obtain ⟨n, c, hc, _⟩ := hinv.live hx
    rw [hc]; rfl

/-- The protection ends with the call: a reference kept from `at` or `block` still points to the core
after the tensor has been copied, so writing through it changes both tensors.  (Handle 0 is created
with value 10, a reference is taken, handle 1 is made as a copy, then the reference is written.) -/
theorem C13_kept_reference_counterexample :
    let st0 : State ℕ ℕ := step State.init (.create 7 10)
    let st1 := (takeReference st0 0).1
    let ref := (takeReference st0 0).2
    let st2 := step st1 (.copy 0)
    let st3 := writeReference st2 (ref.getD 0) (fun _ => 99)
    ref = some 0 ∧ value (view st2) 1 = some (7, 10) ∧ value (view st3) 1 = some (7, 99) := by
  decide

/-- A concrete history with sharing, in-place changes and destruction. -/
example : ([.create 1 10, .copy 0, .rename 1 (· + 1), .update 1 (· * 5), .combine 0 2 (· + ·),
    .destroy 2, .assign 1 0, .update 0 (· + 1)] : List (Event ℕ ℕ)).foldl step State.init =
    ⟨[none, none, some (1, 20), some (1, 21)], [some (1, 3), some (1, 2), none]⟩ := by
  decide

end TAT.Cow
