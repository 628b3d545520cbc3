import Verif.Py.ViewModel
import Verif.Cow.Props

/-!
# Property C82: what a kept block view shows and changes

The specification is what the user of a numpy view expects: the view belongs to one tensor, shows the
elements this tensor has now, and a write through it changes this tensor and nothing else.
-/

namespace TAT.PyView

open TAT.Cow

variable {N C : Type}

/-! ## Specification -/

/-- Every tensor has a value of its own, and a view is just the tensor it belongs to. -/
structure Expected (N C : Type) where
  values : Values N C
  views : List (Option ℕ)
  dropped : List ℕ
deriving DecidableEq, Repr

/-- A view of tensor `h` is alive. -/
def Viewed (e : Expected N C) (h : ℕ) : Prop := some h ∈ e.views

instance (e : Expected N C) (h : ℕ) : Decidable (Viewed e h) := by unfold Viewed; infer_instance

/-- What the events should do. -/
def expectStep (e : Expected N C) : PyEvent N C → Expected N C
  | .lib ev =>
    if ∃ h ∈ arguments ev, h ∈ e.dropped then e else
    match ev with
    | .destroy h => if Viewed e h then { e with dropped := h :: e.dropped }
                    else { e with values := stepValue e.values (.destroy h) }
    | ev => { e with values := stepValue e.values ev }
  | .take h =>
    if h ∈ e.dropped then e else
    match value e.values h with
    | none => e
    | some _ => { e with views := e.views ++ [some h] }
  | .write v f =>
    match (e.views[v]?).join with
    | none => e
    | some h => { e with values := stepValue e.values (.update h f) }
  | .release v =>
    match (e.views[v]?).join with
    | none => e
    | some h =>
      let rest := e.views.set v none
      if h ∈ e.dropped ∧ ¬ some h ∈ rest then
        ⟨stepValue e.values (.destroy h), rest, e.dropped.filter (· ≠ h)⟩
      else { e with views := rest }
  | .setitem h f =>
    if h ∈ e.dropped then e else { e with values := stepValue e.values (.update h f) }

/-- The event makes another tensor share the core of `h`, or gives `h` another core. -/
def Disturbs (h : ℕ) : PyEvent N C → Prop
  | .lib (.copy k) => k = h
  | .lib (.rename k _) => k = h
  | .lib (.assign k k') => k = h ∨ k' = h
  | .lib (.load k _ _) => k = h
  | _ => False

/-- While a view of a tensor is alive, no copy or renamed version of the tensor is made, and it is not
replaced. -/
def Careful : Expected N C → List (PyEvent N C) → Prop
  | _, [] => True
  | e, ev :: evs => (∀ h, Viewed e h → ¬ Disturbs h ev) ∧ Careful (expectStep e ev) evs

/-- The part of a state a user knows about. -/
def shown (st : PyState N C) : Expected N C :=
  ⟨view st.heap, st.views.map (Option.map Prod.fst), st.dropped⟩

/-- No tensors and no views. -/
def Expected.init : Expected N C := ⟨[], [], []⟩

/-! ## Views and the tensors they keep -/

theorem kept_iff (views : List (Option (ℕ × ℕ))) (h : ℕ) :
    kept views h = true ↔ some h ∈ views.map (Option.map Prod.fst) := by
  unfold kept
  rw [List.any_eq_true, List.mem_map]
  constructor
  · rintro ⟨o, ho, hp⟩
    refine ⟨o, ho, ?_⟩
    cases o with
    | none => simp at hp
    | some x => simpa using hp
  · rintro ⟨o, ho, hp⟩
    refine ⟨o, ho, ?_⟩
    cases o with
    | none => simp at hp
    | some x => simpa using hp

theorem viewAt_map (views : List (Option (ℕ × ℕ))) (v : ℕ) :
    (((views.map (Option.map Prod.fst))[v]?).join : Option ℕ) =
      ((views[v]?).join).map Prod.fst := by
  rw [List.getElem?_map]
  cases views[v]? with
  | none => rfl
  | some o => cases o <;> rfl

theorem viewAt_mem {st : PyState N C} {v : ℕ} {x : ℕ × ℕ} (hv : viewAt st v = some x) :
    some x ∈ st.views := by
  unfold viewAt at hv
  cases hg : st.views[v]? with
  | none => rw [hg] at hv; simp at hv
  | some o =>
    rw [hg] at hv
    obtain rfl : o = some x := by simpa using hv
    exact List.mem_of_getElem? hg

/-! ## One owner -/

/-- Tensor `h` has the core at `a` and no other tensor has it. -/
def Owns (st : State N C) (h a : ℕ) : Prop := (∃ names, handle st h = some (names, a)) ∧ owners st a = 1

theorem Owns.append {cells cells' : List (Option (ℕ × C))} {hs : List (Option (N × ℕ))} {h a : ℕ}
    (ho : Owns (⟨cells, hs⟩ : State N C) h a) (names : N) (b : ℕ) (hb : b ≠ a) :
    Owns (⟨cells', hs ++ [some (names, b)]⟩ : State N C) h a := by
  obtain ⟨⟨n, h1⟩, h2⟩ := ho
  refine ⟨⟨n, ?_⟩, ?_⟩
  · rw [handle_append, if_neg (Nat.ne_of_lt (handle_lt h1))]
    exact h1
  · rw [owners_append, if_neg (Ne.symm hb)]
    exact h2

theorem Owns.set {cells cells' : List (Option (ℕ × C))} {hs : List (Option (N × ℕ))} {h a : ℕ}
    (ho : Owns (⟨cells, hs⟩ : State N C) h a) {k : ℕ} {y : N × ℕ}
    (hy : handle (⟨cells, hs⟩ : State N C) k = some y) (hk : h ≠ k)
    (new : Option (N × ℕ)) (hnew : pointsTo a new = false) :
    Owns (⟨cells', hs.set k new⟩ : State N C) h a := by
  obtain ⟨⟨n, h1⟩, h2⟩ := ho
  have hne := handle_ne_of_owners h1 hy h2 hk
  refine ⟨⟨n, ?_⟩, ?_⟩
  · rw [handle_set _ _ _ _ _ (handle_lt hy), if_neg hk]
    exact h1
  · have := countP_set hs k (handle_lt hy) new (pointsTo a)
    have e := handle_getElem hy
    simp only at e
    rw [e, hnew] at this
    have e2 : pointsTo a (some y) = false := by
      simp only [pointsTo, Option.map_some, Option.getD_some, decide_eq_false_iff_not]
      exact hne
    rw [e2] at this
    unfold owners at h2 ⊢
    simp only at h2 ⊢
    simp at this
    omega

theorem Owns.lt {st : State N C} (hi : Inv st) {h a : ℕ} (ho : Owns st h a) : a < st.cells.length := by
  obtain ⟨⟨n, h1⟩, _⟩ := ho
  obtain ⟨m, c, hc, _⟩ := hi.live h1
  exact content_lt hc

theorem Owns.content {st : State N C} (hi : Inv st) {h a : ℕ} (ho : Owns st h a) :
    ∃ c, content st.cells a = some (1, c) := by
  obtain ⟨⟨n, h1⟩, h2⟩ := ho
  obtain ⟨m, c, hc, hm, _⟩ := hi.live h1
  refine ⟨c, ?_⟩
  rw [h2] at hm
  rw [← hm]; exact hc

theorem modify_handles (st : State N C) (h : ℕ) (f : C → C) : (Cow.modify st h f).handles = st.handles := by
  unfold Cow.modify
  split
  · rfl
  · split <;> rfl

theorem Owns.of_handles {st st' : State N C} (e : st'.handles = st.handles) {h a : ℕ}
    (ho : Owns st h a) : Owns st' h a := by
  unfold Owns handle owners at ho ⊢
  rw [e]; exact ho

theorem ensureUnique_owned {st : State N C} (hi : Inv st) {h a : ℕ} (ho : Owns st h a) :
    ensureUnique st h = st := by
  obtain ⟨c, hc⟩ := ho.content hi
  obtain ⟨⟨n, h1⟩, _⟩ := ho
  unfold ensureUnique
  rw [h1]
  simp only [hc]
  simp

theorem Owns.ensureUnique {st : State N C} (hi : Inv st) {h a : ℕ} (ho : Owns st h a) (k : ℕ) :
    Owns (ensureUnique st k) h a := by
  by_cases hk : h = k
  · subst hk; rw [ensureUnique_owned hi ho]; exact ho
  · unfold Cow.ensureUnique
    cases hy : handle st k with
    | none => exact ho
    | some y =>
      simp only
      cases hc : Cow.content st.cells y.2 with
      | none => exact ho
      | some z =>
        simp only
        split
        · refine Owns.set (cells := st.cells) ho hy hk _ ?_
          simp only [pointsTo, Option.map_some, Option.getD_some, decide_eq_false_iff_not]
          exact Nat.ne_of_gt (ho.lt hi)
        · exact ho

/-- A tensor stays the only owner of its core as long as it is not copied, renamed, replaced or
destroyed. -/
theorem Owns.step {st : State N C} (hi : Inv st) {h a : ℕ} (ho : Owns st h a) (ev : Event N C)
    (hd : ¬ Disturbs h (.lib ev : PyEvent N C)) (hn : ∀ k, ev = .destroy k → k ≠ h) :
    Owns (step st ev) h a := by
  have hlt := ho.lt hi
  cases ev with
  | create names core =>
    exact Owns.append (cells := st.cells) ho _ _ (Nat.ne_of_gt hlt)
  | copy k =>
    unfold Cow.step
    cases hy : handle st k with
    | none => simpa [hy] using ho
    | some y =>
      simp only [hy]
      exact Owns.append (cells := st.cells) ho _ _
        (handle_ne_of_owners ho.1.choose_spec hy ho.2 (fun e => hd e.symm))
  | rename k f =>
    unfold Cow.step
    cases hy : handle st k with
    | none => simpa [hy] using ho
    | some y =>
      simp only [hy]
      exact Owns.append (cells := st.cells) ho _ _
        (handle_ne_of_owners ho.1.choose_spec hy ho.2 (fun e => hd e.symm))
  | deepCopy k =>
    unfold Cow.step
    cases hy : handle st k with
    | none => simpa [hy] using ho
    | some y =>
      cases hc : coreOf st k with
      | none => simpa [hy, hc] using ho
      | some c =>
        simp only [hy, hc]
        exact Owns.append (cells := st.cells) ho _ _ (Nat.ne_of_gt hlt)
  | destroy k =>
    unfold Cow.step
    cases hy : handle st k with
    | none => simpa [hy] using ho
    | some y =>
      simp only [hy]
      exact Owns.set (cells := st.cells) ho hy (fun e => hn k rfl e.symm) _ rfl
  | assign k k' =>
    unfold Cow.step
    cases hy : handle st k with
    | none => simpa [hy] using ho
    | some y =>
      cases hy' : handle st k' with
      | none => simpa [hy, hy'] using ho
      | some y' =>
        simp only [hy, hy']
        refine Owns.set (cells := st.cells) ho hy (fun e => hd (Or.inl e.symm)) _ ?_
        simp only [pointsTo, Option.map_some, Option.getD_some, decide_eq_false_iff_not]
        exact handle_ne_of_owners ho.1.choose_spec hy' ho.2 (fun e => hd (Or.inr e.symm))
  | update k f =>
    exact Owns.of_handles (modify_handles _ _ _) (ho.ensureUnique hi k)
  | combine k k' f =>
    unfold Cow.step
    simp only
    split
    · exact ho
    · exact Owns.of_handles (modify_handles _ _ _) (ho.ensureUnique hi k)
  | load k names core =>
    unfold Cow.step
    cases hy : handle st k with
    | none => simpa [hy] using ho
    | some y =>
      simp only [hy]
      refine Owns.set (cells := st.cells) ho hy (fun e => hd e.symm) _ ?_
      simp only [pointsTo, Option.map_some, Option.getD_some, decide_eq_false_iff_not]
      exact Nat.ne_of_gt hlt

/-- The events which do not destroy `h` leave it alive. -/
theorem live_step {st : State N C} (hi : Inv st) {h : ℕ} (hl : (handle st h).isSome) (ev : Event N C)
    (hn : ev ≠ .destroy h) : (handle (step st ev) h).isSome := by
  obtain ⟨i1, i2⟩ := C13_step st hi ev
  have key : ∀ v : Values N C, (value v h).isSome → (value (stepValue v ev) h).isSome := by
    intro v hv
    have hlen : h < v.length := by
      by_contra hc
      unfold value at hv
      rw [List.getElem?_eq_none (by omega)] at hv
      simp at hv
    have happ : ∀ x, (value (v ++ [x]) h).isSome := by
      intro x
      rw [value_append, if_neg (by omega)]; exact hv
    have hset : ∀ k y, (value (v.set k (some y)) h).isSome := by
      intro k y
      by_cases hk : k < v.length
      · rw [value_set _ _ _ _ hk]
        split
        · rfl
        · exact hv
      · rw [List.set_eq_of_length_le (by omega)]; exact hv
    cases ev with
    | create names core => exact happ _
    | copy k => simp only [stepValue]; split; exacts [hv, happ _]
    | rename k f => simp only [stepValue]; split; exacts [hv, happ _]
    | deepCopy k => simp only [stepValue]; split; exacts [hv, happ _]
    | destroy k =>
      simp only [stepValue]
      split
      · exact hv
      · have hk : k ≠ h := fun e => hn (by rw [e])
        unfold value
        rw [List.getElem?_set_ne hk]
        exact hv
    | assign k k' => simp only [stepValue]; split; exacts [hset _ _, hv]
    | update k f => simp only [stepValue]; split; exacts [hv, hset _ _]
    | combine k k' f => simp only [stepValue]; split; exacts [hset _ _, hv]
    | load k names core => simp only [stepValue]; split; exacts [hv, hset _ _]
  have e1 : ∀ s : State N C, Inv s → ((value (view s) h).isSome ↔ (handle s h).isSome) := by
    intro s hs
    have := value_view_isSome hs h
    rw [← Option.not_isSome_iff_eq_none, ← Option.not_isSome_iff_eq_none] at this
    exact not_iff_not.1 this
  rw [← e1 _ i1, i2]
  exact key _ ((e1 st hi).2 hl)

/-- Writing through a reference keeps the counts. -/
theorem writeReference_inv {st : State N C} (hi : Inv st) (a : ℕ) (f : C → C) :
    Inv (writeReference st a f) := by
  unfold writeReference
  cases hc : content st.cells a with
  | none => exact hi
  | some z =>
    obtain ⟨n, c⟩ := z
    intro b
    change (owners st b = 0 ∧ content (st.cells.set a (some (n, f c))) b = none) ∨
      ∃ m d, content (st.cells.set a (some (n, f c))) b = some (m, d) ∧ m = owners st b ∧ 0 < m
    rw [content_set _ _ _ _ (content_lt hc)]
    by_cases hb : b = a
    · subst hb
      rw [if_pos rfl]
      rcases hi b with ⟨_, h2⟩ | ⟨m, d, h2, h3, h4⟩
      · rw [hc] at h2; cases h2
      · rw [hc] at h2; cases h2
        exact Or.inr ⟨n, f c, rfl, h3, h4⟩
    · rw [if_neg hb]; exact hi b

theorem writeReference_handles (st : State N C) (a : ℕ) (f : C → C) :
    (writeReference st a f).handles = st.handles := by
  unfold writeReference; split <;> rfl

theorem content_writeReference {st : State N C} {a n : ℕ} {c : C} (f : C → C)
    (hc : content st.cells a = some (n, c)) (b : ℕ) :
    content (writeReference st a f).cells b = if b = a then some (n, f c) else content st.cells b := by
  unfold writeReference
  rw [hc]
  exact content_set _ _ _ _ (content_lt hc)

/-- Writing through the address of the core of `h` is writing to `h`. -/
theorem writeReference_eq {st : State N C} {h a : ℕ} {names : N} (hh : handle st h = some (names, a))
    (f : C → C) : writeReference st a f = Cow.modify st h f := by
  unfold writeReference Cow.modify
  rw [hh]

/-! ## All histories -/

/-- The counts are right and the tensor of every view is alive. -/
def PInv (st : PyState N C) : Prop :=
  Inv st.heap ∧ ∀ h a, some (h, a) ∈ st.views → (handle st.heap h).isSome

theorem takeReference_spec {st : State N C} (hi : Inv st) {h : ℕ} {x : N × ℕ} (hh : handle st h = some x) :
    ∃ a, takeReference st h = (ensureUnique st h, some a) ∧ Owns (ensureUnique st h) h a := by
  obtain ⟨_, _, y, h3, h4⟩ := ensureUnique_spec hi hh
  exact ⟨y.2, by unfold takeReference; simp only [h3, Option.map_some], ⟨y.1, h3⟩, h4⟩

theorem ensureUnique_inv {st : State N C} (hi : Inv st) (h : ℕ) :
    Inv (ensureUnique st h) ∧ view (ensureUnique st h) = view st := by
  cases hh : handle st h with
  | none => unfold ensureUnique; rw [hh]; exact ⟨hi, rfl⟩
  | some x => obtain ⟨h1, h2, _⟩ := ensureUnique_spec hi hh; exact ⟨h1, h2⟩

theorem live_view {s s' : State N C} (hi : Inv s) (hi' : Inv s') (hv : view s' = view s) (k : ℕ) :
    (handle s' k).isSome ↔ (handle s k).isSome := by
  have e1 := value_view_isSome hi k
  have e2 := value_view_isSome hi' k
  rw [hv, e1] at e2
  rw [← Option.not_isSome_iff_eq_none, ← Option.not_isSome_iff_eq_none] at e2
  exact (not_iff_not.1 e2).symm

theorem takeView_inv {st : PyState N C} (hp : PInv st) (h : ℕ) : PInv (takeView st h) := by
  obtain ⟨hi, hl⟩ := hp
  cases hh : handle st.heap h with
  | none =>
    have e : ensureUnique st.heap h = st.heap := by unfold ensureUnique; rw [hh]
    unfold takeView takeReference
    simp only [e, hh, Option.map_none]
    exact ⟨hi, hl⟩
  | some x =>
    obtain ⟨a, e, ho⟩ := takeReference_spec hi hh
    obtain ⟨j1, j2⟩ := ensureUnique_inv hi h
    unfold takeView
    rw [e]
    refine ⟨j1, ?_⟩
    intro k b hk
    rcases List.mem_append.1 hk with hk | hk
    · exact (live_view hi j1 j2 k).2 (hl k b hk)
    · obtain ⟨rfl, rfl⟩ : k = h ∧ b = a := by simpa using hk
      rw [ho.1.choose_spec]; rfl

theorem writeView_inv {st st' : PyState N C} (hp : PInv st) (v : ℕ) (f : C → C)
    (hw : writeView st v f = .ok st') : PInv st' ∧ st'.views = st.views := by
  unfold writeView at hw
  split at hw
  · cases hw; exact ⟨hp, rfl⟩
  · split at hw
    · cases hw
    · cases hw
      refine ⟨⟨writeReference_inv hp.1 _ _, ?_⟩, rfl⟩
      intro k b hk
      have := hp.2 k b hk
      unfold handle at this ⊢
      simp only [writeReference_handles]
      exact this

theorem pyStep_inv {st st' : PyState N C} (hp : PInv st) (ev : PyEvent N C)
    (hs : pyStep st ev = .ok st') : PInv st' := by
  cases ev with
  | lib ev =>
    unfold pyStep at hs
    simp only at hs
    split at hs
    · cases hs; exact hp
    · have main : ∀ ev : Event N C, (∀ k, ev ≠ .destroy k) →
          PInv { st with heap := step st.heap ev } := by
        intro ev hn
        exact ⟨(C13_step _ hp.1 ev).1, fun k b hk => live_step hp.1 (hp.2 k b hk) ev (hn k)⟩
      cases ev with
      | destroy h =>
        simp only at hs
        cases hs
        unfold dropTensor
        split
        · exact hp
        · rename_i hk
          refine ⟨(C13_step _ hp.1 _).1, fun k b hkb => live_step hp.1 (hp.2 k b hkb) _ ?_⟩
          intro e
          apply hk
          rw [kept_iff]
          injection e with e
          rw [e]
          exact List.mem_map.2 ⟨_, hkb, rfl⟩
      | create names core => cases hs; exact main _ (by simp)
      | copy h => cases hs; exact main _ (by simp)
      | rename h f => cases hs; exact main _ (by simp)
      | deepCopy h => cases hs; exact main _ (by simp)
      | assign h h' => cases hs; exact main _ (by simp)
      | update h f => cases hs; exact main _ (by simp)
      | combine h h' f => cases hs; exact main _ (by simp)
      | load h names core => cases hs; exact main _ (by simp)
  | take h =>
    unfold pyStep at hs
    simp only at hs
    split at hs
    · cases hs; exact hp
    · cases hs; exact takeView_inv hp h
  | write v f => exact (writeView_inv hp v f hs).1
  | release v =>
    cases hs
    unfold releaseView
    split
    · exact hp
    · rename_i h a hv
      have hsub : ∀ x, some x ∈ st.views.set v none → some x ∈ st.views := by
        intro x hx
        rcases List.mem_or_eq_of_mem_set hx with h | h
        · exact h
        · cases h
      simp only
      split
      · rename_i hc
        simp only [Bool.and_eq_true, Bool.not_eq_true'] at hc
        refine ⟨(C13_step _ hp.1 _).1, fun k b hkb => live_step hp.1 (hp.2 k b (hsub _ hkb)) _ ?_⟩
        intro e
        injection e with e
        have : kept (st.views.set v none) h = true := by
          rw [kept_iff, e]
          exact List.mem_map.2 ⟨_, hkb, rfl⟩
        rw [this] at hc
        cases hc.2
      · exact ⟨hp.1, fun k b hkb => hp.2 k b (hsub _ hkb)⟩
  | setitem h f =>
    unfold pyStep at hs
    simp only at hs
    split at hs
    · cases hs; exact hp
    · unfold setItem at hs
      cases hw : writeView (takeView st h) st.views.length f with
      | error m => rw [hw] at hs; cases hs
      | ub => rw [hw] at hs; cases hs
      | ok st1 =>
        rw [hw] at hs
        cases hs
        obtain ⟨h1, h2⟩ := writeView_inv (takeView_inv hp h) _ _ hw
        exact ⟨h1.1, fun k b hk => h1.2 k b ((List.dropLast_sublist _).subset hk)⟩

theorem pyRun_inv (evs : List (PyEvent N C)) {st st' : PyState N C} (hp : PInv st)
    (hr : pyRun st evs = .ok st') : PInv st' := by
  induction evs generalizing st with
  | nil => cases hr; exact hp
  | cons ev evs ih =>
    unfold pyRun at hr
    cases hs : pyStep st ev with
    | error m => rw [hs] at hr; cases hr
    | ub => rw [hs] at hr; cases hr
    | ok st1 =>
      rw [hs] at hr
      exact ih (pyStep_inv hp ev hs) hr

theorem init_pinv : PInv (PyState.init : PyState N C) := by
  refine ⟨init_inv, ?_⟩
  intro h a hm
  cases hm

/-- A state a Python program can reach. -/
def Reached (st : PyState N C) : Prop := ∃ evs, pyRun PyState.init evs = .ok st

theorem Reached.inv {st : PyState N C} (hr : Reached st) : PInv st :=
  pyRun_inv _ init_pinv hr.choose_spec

/-- C82: a view keeps its tensor alive, whatever names are deleted. -/
theorem C82_keeps (st : PyState N C) (hr : Reached st) (v h a : ℕ) (hv : viewAt st v = some (h, a)) :
    ∃ x, value (view st.heap) h = some x := by
  have hl := hr.inv.2 h a (viewAt_mem hv)
  have := value_view_isSome hr.inv.1 h
  cases hx : value (view st.heap) h with
  | some x => exact ⟨x, rfl⟩
  | none => rw [this.1 hx] at hl; cases hl

/-- C82, every history: what a view reads is the value of some tensor alive that has the core now, and
it reads freed memory exactly if there is no such tensor. -/
theorem C82_read (st : PyState N C) (hr : Reached st) (v h a : ℕ) (hv : viewAt st v = some (h, a)) :
    (∀ c, readView st v = .ok c ↔
      ∃ k names, handle st.heap k = some (names, a) ∧ value (view st.heap) k = some (names, c)) ∧
    (readView st v = .ub ↔ ∀ k names, handle st.heap k ≠ some (names, a)) := by
  have hi := hr.inv.1
  have hrd : readView st v = match content st.heap.cells a with
      | none => .ub
      | some (_, c) => .ok c := by
    simp only [readView, hv]
    cases content st.heap.cells a <;> rfl
  have hval : ∀ k names, handle st.heap k = some (names, a) → ∀ n c,
      content st.heap.cells a = some (n, c) → value (view st.heap) k = some (names, c) := by
    intro k names hk n c hc
    rw [value_view, hk]; simp [hc]
  rcases hi a with ⟨h1, h2⟩ | ⟨n, d, h2, h3, h4⟩
  · have hno : ∀ k names, handle st.heap k ≠ some (names, a) := by
      intro k names hk
      have := owners_pos hk
      simp only at this
      omega
    rw [hrd, h2]
    refine ⟨fun c => ⟨fun h => by simp at h, ?_⟩, ⟨fun _ => hno, fun _ => rfl⟩⟩
    rintro ⟨k, names, hk, _⟩
    exact absurd hk (hno k names)
  · obtain ⟨k, names, hk⟩ : ∃ k names, handle st.heap k = some (names, a) := by
      rw [h3] at h4
      unfold owners at h4
      rw [List.countP_pos_iff] at h4
      obtain ⟨o, ho, hp⟩ := h4
      obtain ⟨i, hi, rfl⟩ := List.mem_iff_getElem.1 ho
      cases hx : st.heap.handles[i] with
      | none => rw [hx] at hp; simp [pointsTo] at hp
      | some x =>
        rw [hx] at hp
        obtain ⟨x1, x2⟩ := x
        obtain rfl : x2 = a := by simpa [pointsTo] using hp
        refine ⟨i, x1, ?_⟩
        unfold handle
        rw [List.getElem?_eq_getElem hi, hx]; rfl
    rw [hrd, h2]
    refine ⟨fun c => ⟨?_, ?_⟩, ⟨fun h => by simp at h, fun h => absurd hk (h k names)⟩⟩
    · intro e
      injection e with e
      subst e
      exact ⟨k, names, hk, hval k names hk _ _ h2⟩
    · rintro ⟨k', names', hk', hv'⟩
      rw [hval k' names' hk' _ _ h2] at hv'
      simp only [Option.some.injEq, Prod.mk.injEq] at hv'
      rw [hv'.2]

/-- C82, every history: a write through a view changes all tensors which have the core now, by the same
change, and no other tensor. -/
theorem C82_write (st : PyState N C) (v h a : ℕ) (hv : viewAt st v = some (h, a))
    (f : C → C) (st' : PyState N C) (hw : pyStep st (.write v f) = .ok st') (k : ℕ) :
    value (view st'.heap) k =
      if (handle st.heap k).map Prod.snd = some a
      then (value (view st.heap) k).map fun x => (x.1, f x.2) else value (view st.heap) k := by
  change writeView st v f = .ok st' at hw
  unfold writeView at hw
  rw [hv] at hw
  simp only at hw
  cases hc : content st.heap.cells a with
  | none => rw [hc] at hw; cases hw
  | some z =>
    obtain ⟨n, c⟩ := z
    rw [hc] at hw
    cases hw
    simp only
    have hh : handle (writeReference st.heap a f) k = handle st.heap k := by
      unfold handle; rw [writeReference_handles]
    rw [value_view, value_view, hh]
    cases hk : handle st.heap k with
    | none => simp
    | some y =>
      simp only [Option.bind_some, content_writeReference f hc, Option.map_some, Option.some.injEq]
      by_cases hy : y.2 = a
      · rw [if_pos hy, if_pos hy, hy, hc]; rfl
      · rw [if_neg hy, if_neg hy]

/-- C82, every history: an assignment to `tensor.block[…]` is always defined, changes the tensor as
expected, and no other one; views are neither made nor lost. -/
theorem C82_setitem (st : PyState N C) (hr : Reached st) (h : ℕ) (f : C → C) :
    ∃ st', pyStep st (.setitem h f) = .ok st' ∧ shown st' = expectStep (shown st) (.setitem h f) := by
  have hi := hr.inv.1
  unfold pyStep expectStep
  dsimp only
  by_cases hd : h ∈ st.dropped
  · refine ⟨st, ?_, ?_⟩
    · rw [if_pos (by simp [hd])]
    · rw [if_pos (show h ∈ (shown st).dropped from hd)]
  · rw [if_neg (show ¬ h ∈ (shown st).dropped from hd)]
    cases hh : handle st.heap h with
    | none =>
      refine ⟨st, by simp, ?_⟩
      simp only [shown, stepValue, (value_view_isSome hi h).2 hh]
    | some x =>
      rw [if_neg (by simp [hd])]
      obtain ⟨a, e, ho⟩ := takeReference_spec hi hh
      obtain ⟨j1, j2⟩ := ensureUnique_inv hi h
      obtain ⟨c, hc⟩ := ho.content j1
      have hw : writeView (takeView st h) st.views.length f =
          .ok { st with heap := writeReference (ensureUnique st.heap h) a f,
                        views := st.views ++ [some (h, a)] } := by
        unfold takeView writeView viewAt
        rw [e]
        simp [hc]
      unfold setItem
      rw [hw]
      refine ⟨_, rfl, ?_⟩
      simp only [List.dropLast_concat, shown]
      obtain ⟨names, hn⟩ := ho.1
      have : view (Cow.modify (ensureUnique st.heap h) h f) = stepValue (view st.heap) (.update h f) :=
        (C13_step st.heap hi (.update h f)).2
      rw [writeReference_eq hn, this]

/-! ## Careful programs -/

/-- The relation of a state and what is expected, in careful programs. -/
structure Agrees (st : PyState N C) (e : Expected N C) : Prop where
  inv : Inv st.heap
  shown : shown st = e
  owns : ∀ h a, some (h, a) ∈ st.views → Owns st.heap h a

theorem viewed_iff {st : PyState N C} {h : ℕ} :
    Viewed (shown st) h ↔ ∃ a, some (h, a) ∈ st.views := by
  unfold Viewed shown
  rw [List.mem_map]
  constructor
  · rintro ⟨o, ho, e⟩
    cases o with
    | none => cases e
    | some x =>
      obtain ⟨x1, x2⟩ := x
      obtain rfl : x1 = h := by simpa using e
      exact ⟨x2, ho⟩
  · rintro ⟨a, ha⟩
    exact ⟨_, ha, rfl⟩

theorem any_dropped (l d : List ℕ) : (l.any d.contains = true) ↔ ∃ h ∈ l, h ∈ d := by
  simp

theorem agrees_step {st : PyState N C} {e : Expected N C} (ha : Agrees st e) (ev : PyEvent N C)
    (hc : ∀ h, Viewed e h → ¬ Disturbs h ev) :
    ∃ st', pyStep st ev = .ok st' ∧ Agrees st' (expectStep e ev) := by
  obtain ⟨hi, rfl, ho⟩ := ha
  cases ev with
  | lib ev =>
    unfold pyStep expectStep
    simp only
    by_cases hd : ∃ h ∈ arguments ev, h ∈ st.dropped
    · rw [if_pos ((any_dropped _ _).2 hd), if_pos (show ∃ h ∈ arguments ev, h ∈ (shown st).dropped from hd)]
      exact ⟨st, rfl, hi, rfl, ho⟩
    · rw [if_neg (by rw [any_dropped]; exact hd),
        if_neg (show ¬ ∃ h ∈ arguments ev, h ∈ (shown st).dropped from hd)]
      have main : ∀ ev' : Event N C, ev' = ev → (∀ k, ev' ≠ .destroy k) →
          Agrees { st with heap := step st.heap ev' }
            { shown st with values := stepValue (shown st).values ev' } := by
        intro ev' e hn
        subst e
        obtain ⟨h1, h2⟩ := C13_step _ hi ev'
        refine ⟨h1, ?_, ?_⟩
        · simp only [shown, h2]
        · intro h a hm
          exact (ho h a hm).step hi ev' (hc h (viewed_iff.2 ⟨a, hm⟩)) (fun k e => absurd e (hn k))
      cases ev with
      | destroy h =>
        simp only
        refine ⟨_, rfl, ?_⟩
        unfold dropTensor
        have hk : kept st.views h = true ↔ Viewed (shown st) h := kept_iff _ _
        by_cases hv : Viewed (shown st) h
        · rw [if_pos (hk.2 hv), if_pos hv]
          exact ⟨hi, rfl, ho⟩
        · rw [if_neg (fun e => hv (hk.1 e)), if_neg hv]
          obtain ⟨h1, h2⟩ := C13_step _ hi (.destroy h)
          refine ⟨h1, by simp only [shown, h2], ?_⟩
          intro k a hm
          refine (ho k a hm).step hi _ (by simp [Disturbs]) ?_
          intro k' e hk'
          injection e with e
          apply hv
          rw [e, hk']
          exact viewed_iff.2 ⟨a, hm⟩
      | create names core => exact ⟨_, rfl, main _ rfl (by simp)⟩
      | copy h => exact ⟨_, rfl, main _ rfl (by simp)⟩
      | rename h f => exact ⟨_, rfl, main _ rfl (by simp)⟩
      | deepCopy h => exact ⟨_, rfl, main _ rfl (by simp)⟩
      | assign h h' => exact ⟨_, rfl, main _ rfl (by simp)⟩
      | update h f => exact ⟨_, rfl, main _ rfl (by simp)⟩
      | combine h h' f => exact ⟨_, rfl, main _ rfl (by simp)⟩
      | load h names core => exact ⟨_, rfl, main _ rfl (by simp)⟩
  | take h =>
    unfold pyStep expectStep
    simp only
    by_cases hd : h ∈ st.dropped
    · rw [if_pos (by simpa using hd), if_pos (show h ∈ (shown st).dropped from hd)]
      exact ⟨st, rfl, hi, rfl, ho⟩
    · rw [if_neg (by simpa using hd), if_neg (show ¬ h ∈ (shown st).dropped from hd)]
      refine ⟨_, rfl, ?_⟩
      cases hh : handle st.heap h with
      | none =>
        have e : ensureUnique st.heap h = st.heap := by unfold ensureUnique; rw [hh]
        have e2 : value (shown st).values h = none := (value_view_isSome hi h).2 hh
        unfold takeView takeReference
        simp only [e, hh, Option.map_none, e2]
        exact ⟨hi, rfl, ho⟩
      | some x =>
        obtain ⟨a, e, hown⟩ := takeReference_spec hi hh
        obtain ⟨j1, j2⟩ := ensureUnique_inv hi h
        obtain ⟨y, hy⟩ : ∃ y, value (shown st).values h = some y := by
          cases hv : value (shown st).values h with
          | some y => exact ⟨y, rfl⟩
          | none => rw [(value_view_isSome hi h).1 hv] at hh; cases hh
        unfold takeView
        rw [e, hy]
        refine ⟨j1, ?_, ?_⟩
        · simp [shown, j2]
        · intro k b hk
          rcases List.mem_append.1 hk with hk | hk
          · exact (ho k b hk).ensureUnique hi h
          · obtain ⟨rfl, rfl⟩ : k = h ∧ b = a := by simpa using hk
            exact hown
  | write v f =>
    unfold expectStep
    simp only
    have hvm : ((shown st).views[v]?).join = (viewAt st v).map Prod.fst := viewAt_map _ _
    rw [hvm]
    change ∃ st', writeView st v f = .ok st' ∧ _
    unfold writeView
    cases hv : viewAt st v with
    | none => exact ⟨st, rfl, hi, rfl, ho⟩
    | some x =>
      obtain ⟨h, a⟩ := x
      have hown := ho h a (viewAt_mem hv)
      obtain ⟨c, hcon⟩ := hown.content hi
      obtain ⟨names, hn⟩ := hown.1
      simp only [hcon, Option.map_some]
      refine ⟨_, rfl, writeReference_inv hi _ _, ?_, ?_⟩
      · have : view (Cow.modify (ensureUnique st.heap h) h f) = stepValue (view st.heap) (.update h f) :=
          (C13_step st.heap hi (.update h f)).2
        rw [ensureUnique_owned hi hown] at this
        simp only [shown, writeReference_eq hn, this]
      · intro k b hk
        exact Owns.of_handles (writeReference_handles _ _ _) (ho k b hk)
  | release v =>
    unfold expectStep
    simp only
    have hvm : ((shown st).views[v]?).join = (viewAt st v).map Prod.fst := viewAt_map _ _
    rw [hvm]
    change ∃ st', Outcome.ok (releaseView st v) = .ok st' ∧ _
    refine ⟨_, rfl, ?_⟩
    unfold releaseView
    cases hv : viewAt st v with
    | none => exact ⟨hi, rfl, ho⟩
    | some x =>
      obtain ⟨h, a⟩ := x
      have hsub : ∀ x, some x ∈ st.views.set v none → some x ∈ st.views := by
        intro x hx
        rcases List.mem_or_eq_of_mem_set hx with h | h
        · exact h
        · cases h
      have hset : (shown st).views.set v none = (st.views.set v none).map (Option.map Prod.fst) := by
        simp [shown, List.map_set]
      have hk := kept_iff (st.views.set v none) h
      simp only [Option.map_some, hset]
      by_cases hcase : h ∈ st.dropped ∧ ¬ some h ∈ (st.views.set v none).map (Option.map Prod.fst)
      · rw [if_pos (show h ∈ (shown st).dropped ∧ _ from hcase), if_pos]
        · obtain ⟨h1, h2⟩ := C13_step _ hi (.destroy h)
          refine ⟨h1, by simp only [shown, h2], ?_⟩
          intro k b hkb
          refine (ho k b (hsub _ hkb)).step hi _ (by simp [Disturbs]) ?_
          intro k' e hk'
          injection e with e
          apply hcase.2
          rw [e, hk']
          exact List.mem_map.2 ⟨_, hkb, rfl⟩
        · rw [Bool.and_eq_true]
          refine ⟨by simpa using hcase.1, ?_⟩
          rw [Bool.not_eq_true', ← Bool.not_eq_true]
          exact fun hkt => hcase.2 (hk.1 hkt)
      · rw [if_neg (show ¬ (h ∈ (shown st).dropped ∧ _) from hcase), if_neg]
        · exact ⟨hi, by simp only [shown], fun k b hkb => ho k b (hsub _ hkb)⟩
        · rw [Bool.and_eq_true]
          rintro ⟨e1, e2⟩
          apply hcase
          refine ⟨by simpa using e1, ?_⟩
          rw [Bool.not_eq_true', ← Bool.not_eq_true] at e2
          exact fun hm => e2 (hk.2 hm)
  | setitem h f =>
    unfold pyStep expectStep
    simp only
    by_cases hd : h ∈ st.dropped
    · rw [if_pos (by simp [hd]), if_pos (show h ∈ (shown st).dropped from hd)]
      exact ⟨st, rfl, hi, rfl, ho⟩
    · rw [if_neg (show ¬ h ∈ (shown st).dropped from hd)]
      cases hh : handle st.heap h with
      | none =>
        refine ⟨st, by simp, hi, ?_, ho⟩
        simp only [shown, stepValue, (value_view_isSome hi h).2 hh]
      | some x =>
        rw [if_neg (by simp [hd])]
        obtain ⟨a, e, hown⟩ := takeReference_spec hi hh
        obtain ⟨j1, j2⟩ := ensureUnique_inv hi h
        obtain ⟨c, hcon⟩ := hown.content j1
        have hw : writeView (takeView st h) st.views.length f =
            .ok { st with heap := writeReference (ensureUnique st.heap h) a f,
                          views := st.views ++ [some (h, a)] } := by
          unfold takeView writeView viewAt
          rw [e]
          simp [hcon]
        unfold setItem
        rw [hw]
        refine ⟨_, rfl, writeReference_inv j1 _ _, ?_, ?_⟩
        · simp only [List.dropLast_concat, shown]
          obtain ⟨names, hn⟩ := hown.1
          have : view (Cow.modify (ensureUnique st.heap h) h f) = stepValue (view st.heap) (.update h f) :=
            (C13_step st.heap hi (.update h f)).2
          rw [writeReference_eq hn, this]
        · intro k b hk
          simp only [List.dropLast_concat] at hk
          exact Owns.of_handles (writeReference_handles _ _ _) ((ho k b hk).ensureUnique hi h)

/-- C82, careful programs: if no tensor is copied, renamed or replaced while a view of it is alive, then
the program is defined, the tensors have the values they should have, and every view shows what its
tensor has now.  (Without care this is false: `C82_shared_write`, `C82_stale`, `C82_dangling`.) -/
theorem C82_careful_partial (evs : List (PyEvent N C)) (hc : Careful Expected.init evs) :
    ∃ st, pyRun PyState.init evs = .ok st ∧
      shown st = evs.foldl expectStep Expected.init ∧
      ∀ v h, ((shown st).views[v]?).join = some h →
        ∃ names c, value (shown st).values h = some (names, c) ∧ readView st v = .ok c := by
  have key : ∀ (evs : List (PyEvent N C)) (st : PyState N C) (e : Expected N C), Agrees st e →
      Careful e evs → ∃ st', pyRun st evs = .ok st' ∧ Agrees st' (evs.foldl expectStep e) := by
    intro evs
    induction evs with
    | nil => intro st e ha _; exact ⟨st, rfl, ha⟩
    | cons ev evs ih =>
      intro st e ha hc
      obtain ⟨st1, h1, h2⟩ := agrees_step ha ev hc.1
      obtain ⟨st2, h3, h4⟩ := ih st1 _ h2 hc.2
      refine ⟨st2, ?_, h4⟩
      unfold pyRun
      rw [h1]
      exact h3
  obtain ⟨st, h1, hi, h2, h3⟩ := key evs PyState.init Expected.init
    ⟨init_inv, rfl, fun h a hm => by cases hm⟩ hc
  refine ⟨st, h1, h2, ?_⟩
  intro v h hv
  have hvm : ((shown st).views[v]?).join = (viewAt st v).map Prod.fst := viewAt_map _ _
  rw [hvm] at hv
  cases hx : viewAt st v with
  | none => rw [hx] at hv; cases hv
  | some x =>
    obtain ⟨k, a⟩ := x
    rw [hx] at hv
    obtain rfl : k = h := by simpa using hv
    have hown := h3 k a (viewAt_mem hx)
    obtain ⟨c, hcon⟩ := hown.content hi
    obtain ⟨names, hn⟩ := hown.1
    refine ⟨names, c, ?_, ?_⟩
    · change value (view st.heap) k = _
      rw [value_view, hn]; simp [hcon]
    · unfold readView; rw [hx]; simp only [hcon]

/-! ## Programs without care -/

/-- C82 fails, in every state: if a tensor is renamed while a view of it is alive, a write through the
view changes the new tensor as well. -/
theorem C82_shared_write (st : PyState N C) (hr : Reached st) (v h a : ℕ) (names : N) (c : C)
    (hv : viewAt st v = some (h, a)) (hh : handle st.heap h = some (names, a))
    (hc : value (view st.heap) h = some (names, c)) (hd : h ∉ st.dropped) (g : N → N) (f : C → C) :
    ∃ st', pyRun st [.lib (.rename h g), .write v f] = .ok st' ∧
      value (view st'.heap) st.heap.handles.length = some (g names, f c) ∧
      value ([.lib (.rename h g), .write v f].foldl expectStep (shown st)).values
        st.heap.handles.length = some (g names, c) := by
  have hi := hr.inv.1
  obtain ⟨n, d, hcon, hn, hpos⟩ := hi.live hh
  have hdc : d = c := by
    rw [value_view, hh] at hc
    simpa [hcon] using hc
  subst hdc
  have e1 : pyStep st (.lib (.rename h g)) = .ok { st with heap :=
      ⟨acquire st.heap.cells a, st.heap.handles ++ [some (g names, a)]⟩ } := by
    unfold pyStep step
    simp [arguments, hd, hh]
  have hcon' : content (acquire st.heap.cells a) a = some (n + 1, d) := by
    rw [content_acquire hcon, if_pos rfl]
  have hlt := handle_lt hh
  refine ⟨_, by unfold pyRun; rw [e1]; unfold pyRun pyRun pyStep writeView viewAt; simp only [Outcome.bind]; rw [show (st.views[v]?).join = _ from hv]; simp only [hcon']; rfl, ?_, ?_⟩
  · simp only
    rw [value_view]
    have : handle (writeReference (⟨acquire st.heap.cells a, st.heap.handles ++ [some (g names, a)]⟩ :
        State N C) a f) st.heap.handles.length = some (g names, a) := by
      unfold handle
      rw [writeReference_handles]
      simp
    rw [this]
    simp only [Option.bind_some]
    rw [content_writeReference f hcon', if_pos rfl]
    rfl
  · have hvm : ((shown st).views[v]?).join = some h := by
      have : ((shown st).views[v]?).join = (viewAt st v).map Prod.fst := viewAt_map _ _
      rw [this, hv]; rfl
    have s1 : expectStep (shown st) (.lib (.rename h g)) =
        { shown st with values := view st.heap ++ [some (g names, d)] } := by
      unfold expectStep
      dsimp only
      rw [if_neg (by simpa [arguments, shown] using hd)]
      simp only [stepValue]
      rw [show value (shown st).values h = _ from hc]
      rfl
    simp only [List.foldl_cons, List.foldl_nil, s1]
    unfold expectStep
    simp only [hvm]
    have hlen : (view st.heap).length = st.heap.handles.length := view_length _
    have hval : value (view st.heap ++ [some (g names, d)]) h = some (names, d) := by
      rw [value_append, if_neg (by omega)]; exact hc
    simp only [stepValue, hval]
    rw [value_set _ _ _ _ (by simp; omega), if_neg (by omega), value_append, if_pos hlen.symm]

/-- C82 fails, in every state: if a tensor is renamed and then changed, a view of it made before still
shows the old elements. -/
theorem C82_stale (st : PyState N C) (hr : Reached st) (v h a : ℕ) (names : N) (c : C)
    (hv : viewAt st v = some (h, a)) (hh : handle st.heap h = some (names, a))
    (hc : value (view st.heap) h = some (names, c)) (hd : h ∉ st.dropped) (g : N → N) (f : C → C) :
    ∃ st', pyRun st [.lib (.rename h g), .lib (.update h f)] = .ok st' ∧
      value (view st'.heap) h = some (names, f c) ∧ readView st' v = .ok c := by
  have hi := hr.inv.1
  have r1 : pyStep st (.lib (.rename h g)) = .ok { st with heap := step st.heap (.rename h g) } := by
    unfold pyStep; simp [arguments, hd]
  have r2 : pyStep { st with heap := step st.heap (.rename h g) } (.lib (.update h f)) =
      .ok { st with heap := step (step st.heap (.rename h g)) (.update h f) } := by
    unfold pyStep; simp [arguments, hd]
  have run : pyRun st [.lib (.rename h g), .lib (.update h f)] =
      .ok { st with heap := step (step st.heap (.rename h g)) (.update h f) } := by
    unfold pyRun; rw [r1]; simp only [Outcome.bind]
    unfold pyRun; rw [r2]; rfl
  have hr' : Reached ({ st with heap := step (step st.heap (.rename h g)) (.update h f) } : PyState N C) := by
    obtain ⟨evs, he⟩ := hr
    refine ⟨evs ++ [.lib (.rename h g), .lib (.update h f)], ?_⟩
    have : ∀ (l : List (PyEvent N C)) (s t : PyState N C) (m : List (PyEvent N C)),
        pyRun s l = .ok t → pyRun s (l ++ m) = pyRun t m := by
      intro l
      induction l with
      | nil => intro s t m h; cases h; rfl
      | cons x l ih =>
        intro s t m h
        unfold pyRun at h
        cases hs : pyStep s x with
        | error _ => rw [hs] at h; cases h
        | ub => rw [hs] at h; cases h
        | ok u =>
          rw [hs] at h
          rw [List.cons_append]
          conv_lhs => unfold pyRun
          rw [hs]
          exact ih u t m h
    rw [this evs _ _ _ he, run]
  obtain ⟨j1, j2⟩ := C13_step st.heap hi (.rename h g)
  obtain ⟨k1, k2⟩ := C13_step _ j1 (.update h f)
  have hlt := handle_lt hh
  have hlen : (view st.heap).length = st.heap.handles.length := view_length _
  have v1 : view (step st.heap (.rename h g)) = view st.heap ++ [some (g names, c)] := by
    rw [j2]; simp only [stepValue, hc]
  have v2 : view (step (step st.heap (.rename h g)) (.update h f)) =
      (view st.heap ++ [some (g names, c)]).set h (some (names, f c)) := by
    rw [k2, v1]
    have : value (view st.heap ++ [some (g names, c)]) h = some (names, c) := by
      rw [value_append, if_neg (by omega)]; exact hc
    simp only [stepValue, this]
  refine ⟨_, run, ?_, ?_⟩
  · simp only [v2]
    rw [value_set _ _ _ _ (by simp; omega), if_pos rfl]
  · refine (((C82_read _ hr' v h a hv).1 c).2) ⟨st.heap.handles.length, g names, ?_, ?_⟩
    · have s1 : step st.heap (.rename h g) =
          ⟨acquire st.heap.cells a, st.heap.handles ++ [some (g names, a)]⟩ := by
        unfold step; simp only [hh]
      have e1 : handle (step st.heap (.rename h g)) st.heap.handles.length = some (g names, a) := by
        rw [s1, handle_append, if_pos rfl]
      simp only
      unfold step handle
      simp only
      rw [modify_handles]
      have hne : h ≠ st.heap.handles.length := Nat.ne_of_lt hlt
      change handle (ensureUnique (step st.heap (.rename h g)) h) st.heap.handles.length = _
      unfold ensureUnique
      split
      · exact e1
      · split
        · exact e1
        · split
          · unfold handle
            simp only
            rw [List.getElem?_set_ne hne]
            exact e1
          · exact e1
    · simp only [v2]
      rw [value_set _ _ _ _ (by simp; omega), if_neg (by omega), value_append, if_pos hlen.symm]

/-- C82 fails, in every state: if a tensor that does not share its core is loaded again, a view of it
made before reads and writes freed memory. -/
theorem C82_dangling (st : PyState N C) (hr : Reached st) (v h a : ℕ)
    (hv : viewAt st v = some (h, a)) (ho : Owns st.heap h a) (hd : h ∉ st.dropped)
    (names' : N) (c' : C) (f : C → C) :
    ∃ st', pyStep st (.lib (.load h names' c')) = .ok st' ∧ readView st' v = .ub ∧
      pyStep st' (.write v f) = .ub := by
  have hi := hr.inv.1
  obtain ⟨c, hcon⟩ := ho.content hi
  obtain ⟨⟨names, hh⟩, _⟩ := ho
  have hlt := content_lt hcon
  have hcell : content (release (alloc st.heap.cells c') a) a = none := by
    rw [content_release (n := 1) (c := c), if_pos rfl, if_pos rfl]
    rw [content_alloc, if_neg (by omega)]
    exact hcon
  refine ⟨{ st with heap := step st.heap (.load h names' c') }, ?_, ?_, ?_⟩
  · unfold pyStep; simp [arguments, hd]
  · unfold readView viewAt
    simp only
    rw [show (st.views[v]?).join = _ from hv]
    unfold step
    simp only [hh, hcell]
  · unfold pyStep writeView viewAt
    simp only
    rw [show (st.views[v]?).join = _ from hv]
    unfold step
    simp only [hh, hcell]

end TAT.PyView
