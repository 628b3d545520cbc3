import Verif.Square.UpdateBond

/-!
# What a simple update does with the amplitudes: runs
-/

namespace TAT

set_option linter.unusedSectionVars false

/-! ## Terms -/

section

variable {M N : ℕ}

/-- The second site is right of the first or below it. -/
def NextTo (x y : LatticeSite M N) : Prop :=
  (x.1.val = y.1.val ∧ x.2.val + 1 = y.2.val) ∨ (x.1.val + 1 = y.1.val ∧ x.2.val = y.2.val)

/-- A key is that of a term on the sites `xs`, which are in reading order; two sites may be listed in either
order. -/
def TermOf (key : TermKey) (xs : List (LatticeSite M N)) : Prop :=
  (∃ x, xs = [x] ∧ key = [sitePos x]) ∨
  ∃ x y, NextTo x y ∧ xs = [x, y] ∧ (key = [sitePos x, sitePos y] ∨ key = [sitePos y, sitePos x])

/-- The environments at the two sites of a bond, except the one between them. -/
def environmentsAround {T E : Type} (s : UpdateState T E) : List (LatticeSite M N) → List (Option E)
  | [x, y] =>
    let l := around s (sitePos x)
    let r := around s (sitePos y)
    if x.1.val = y.1.val then l.take 3 ++ r.drop 1 else l.eraseIdx 2 ++ r.eraseIdx 1
  | _ => []

theorem TermOf.bond {key : TermKey} {xs : List (LatticeSite M N)} (h : TermOf key xs) : ∃ b, IsBond key b := by
  rcases h with ⟨x, rfl, rfl⟩ | ⟨x, y, h | h, rfl, hk⟩
  · exact ⟨.single _, rfl⟩
  · have : sitePos y = ((sitePos x).1, (sitePos x).2 + 1) := by
      rw [sitePos, sitePos, Prod.mk.injEq]; omega
    rw [this] at hk
    exact ⟨.hor (sitePos x), hk⟩
  · have : sitePos y = ((sitePos x).1 + 1, (sitePos x).2) := by
      rw [sitePos, sitePos, Prod.mk.injEq]; omega
    rw [this] at hk
    exact ⟨.ver (sitePos x), hk⟩

theorem TermOf.nodup {key : TermKey} {xs : List (LatticeSite M N)} (h : TermOf key xs) : xs.Nodup := by
  rcases h with ⟨x, rfl, rfl⟩ | ⟨x, y, h, rfl, hk⟩
  · simp
  · have : x ≠ y := by
      rintro rfl
      rcases h with h | h <;> omega
    simpa using this

theorem TermOf.supported {key : TermKey} {xs : List (LatticeSite M N)} (h : TermOf key xs) : UpdateTermKey key := by
  rcases h with ⟨x, rfl, rfl⟩ | ⟨x, y, h | h, rfl, hk⟩
  · exact Or.inl ⟨_, rfl⟩
  · have : sitePos y = ((x.1.val : ℤ), (x.2.val : ℤ) + 1) := by
      rw [sitePos, Prod.mk.injEq]; omega
    rw [this] at hk
    exact Or.inr (Or.inl ⟨_, _, Or.inl (by omega), hk⟩)
  · have : sitePos y = ((x.1.val : ℤ) + 1, (x.2.val : ℤ)) := by
      rw [sitePos, Prod.mk.injEq]; omega
    rw [this] at hk
    exact Or.inr (Or.inr ⟨_, _, Or.inl (by omega), hk⟩)

end

variable {ν α β : Type} [LinearOrder ν]

/-- Some tensor of the state is not a number. -/
def Spoiled (st : UpdateState (Outcome (Tensor ν NoSymmetry α)) (Outcome (SingularTable β))) : Prop :=
  ∃ p, ∀ t, st.site p ≠ .ok t

variable [Field α] [LinearOrder β] [Field β] {e : NetEnv ν α β}

theorem bondResult_spoiled {T E : Type} {r : Outcome (T × E × T)} (hr : ∀ x, r ≠ .ok x) :
    (∀ t, (bondResult r).1 ≠ .ok t) ∧ ∀ t, (bondResult r).2.2 ≠ .ok t := by
  cases r with
  | ok x => exact absurd rfl (hr x)
  | error m => exact ⟨fun t => by simp [bondResult, Outcome.bind], fun t => by simp [bondResult, Outcome.bind]⟩
  | ub => exact ⟨fun t => by simp [bondResult, Outcome.bind], fun t => by simp [bondResult, Outcome.bind]⟩

theorem bind_spoiled {A B : Type} {a : Outcome A} (f : A → Outcome B) (h : ∀ x, a ≠ .ok x) : ∀ x, a.bind f ≠ .ok x := by
  cases a with
  | ok x => exact absurd rfl (h x)
  | error m => exact fun x => by simp [Outcome.bind]
  | ub => exact fun x => by simp [Outcome.bind]

theorem bind_spoiled' {A B : Type} (a : Outcome A) {f : A → Outcome B} (h : ∀ y x, f y ≠ .ok x) :
    ∀ x, a.bind f ≠ .ok x := by
  cases a with
  | ok x => exact h x
  | error m => exact fun x => by simp [Outcome.bind]
  | ub => exact fun x => by simp [Outcome.bind]

theorem write_spoiled {T : Type} {f : Pos → Outcome T} {p q x : Pos} {A B : Outcome T} (hx : ∀ t, f x ≠ .ok t)
    (h : x = p ∨ x = q → (∀ t, A ≠ .ok t) ∧ ∀ t, B ≠ .ok t) :
    ∀ t, Function.update (Function.update f p A) q B x ≠ .ok t := by
  intro t
  by_cases hq : x = q
  · subst hq
    rw [Function.update_self]
    exact (h (Or.inr rfl)).2 t
  · rw [Function.update_of_ne hq]
    by_cases hp : x = p
    · subst hp
      rw [Function.update_self]
      exact (h (Or.inl rfl)).1 t
    · rw [Function.update_of_ne hp]
      exact hx t

/-- What is no number stays no number. -/
theorem Spoiled.apply (D : ℕ) (U : Tensor ν NoSymmetry α) (b : Bond)
    {st : UpdateState (Outcome (Tensor ν NoSymmetry α)) (Outcome (SingularTable β))} (h : Spoiled st) :
    Spoiled (b.apply (netOps e D) U st) := by
  obtain ⟨x, hx⟩ := h
  refine ⟨x, ?_⟩
  cases b with
  | single p =>
    intro t
    show Function.update st.site p _ x ≠ _
    by_cases hp : x = p
    · subst hp
      rw [Function.update_self]
      exact bind_spoiled _ hx t
    · rw [Function.update_of_ne hp]
      exact hx t
  | hor p =>
    refine write_spoiled hx fun h => ?_
    refine bondResult_spoiled ?_
    rcases h with rfl | rfl
    · exact bind_spoiled _ hx
    · exact bind_spoiled' _ fun y => bind_spoiled _ hx
  | ver p =>
    refine write_spoiled hx fun h => ?_
    refine bondResult_spoiled ?_
    rcases h with rfl | rfl
    · exact bind_spoiled _ hx
    · exact bind_spoiled' _ fun y => bind_spoiled _ hx

theorem Spoiled.run (D : ℕ) {updater : TermKey → Option (Tensor ν NoSymmetry α)} {keys : List TermKey}
    (hk : ∀ k ∈ keys, ∃ U b, updater k = some U ∧ IsBond k b)
    {st : UpdateState (Outcome (Tensor ν NoSymmetry α)) (Outcome (SingularTable β))} (h : Spoiled st) :
    ∃ st', sequentialUpdate (netOps e D) updater keys st = .ok st' ∧ Spoiled st' := by
  induction keys generalizing st with
  | nil => exact ⟨st, rfl, h⟩
  | cons k l ih =>
    obtain ⟨U, b, h1, h2⟩ := hk k (by simp)
    rw [sequentialUpdate, h1]
    simp only []
    rw [updateTerm_bond _ _ h2]
    exact ih (fun k hk' => hk k (by simp [hk'])) (h.apply D U b)

theorem Keeps.mono {a b D : ℕ} (h : Keeps b D) (hab : a ≤ b) : Keeps a D := by
  rcases h with h | h
  · exact Or.inl (hab.trans h)
  · exact Or.inr h

theorem actOn_mul {M N d : ℕ} (xs : List (LatticeSite M N)) (H : List ℕ → List ℕ → α) (c : α)
    (ψ : SpinConfig M N d → α) : actOn xs H (fun x => c * ψ x) = fun x => c * actOn xs H ψ x := by
  funext s
  rw [actOn, actOn, Finset.mul_sum]
  refine Finset.sum_congr rfl fun x _ => ?_
  split
  · ring
  · ring

/-- One term after the other acts on the amplitudes. -/
def actTerms {M N d : ℕ} (nm : String → ν) (sites : TermKey → List (LatticeSite M N))
    (op : TermKey → Tensor ν NoSymmetry α) (keys : List TermKey) (ψ : SpinConfig M N d → α) : SpinConfig M N d → α :=
  keys.foldl (fun ψ k => actOn (sites k) (matrixElement nm (op k)) ψ) ψ

theorem actTerms_mul {M N d : ℕ} (nm : String → ν) (sites : TermKey → List (LatticeSite M N))
    (op : TermKey → Tensor ν NoSymmetry α) (keys : List TermKey) (c : α) (ψ : SpinConfig M N d → α) :
    actTerms nm sites op keys (fun x => c * ψ x) = fun x => c * actTerms nm sites op keys ψ x := by
  induction keys generalizing ψ with
  | nil => rfl
  | cons k l ih =>
    show actTerms nm sites op l (actOn _ _ _) = _
    rw [actOn_mul, ih]
    rfl

/-- The dimensions of all edges when the one between the two sites has another one. -/
def withBond {M N : ℕ} (xs : List (LatticeSite M N)) (K : ℕ) (h v : ℕ → ℕ → Option ℕ) :
    (ℕ → ℕ → Option ℕ) × (ℕ → ℕ → Option ℕ) :=
  match xs with
  | [x, y] => if x.1.val = y.1.val then (setDim h x.1.val y.2.val K, v) else (h, setDim v y.1.val x.2.val K)
  | _ => (h, v)

/-- The amplitude when the sum over the edge between the two sites has only the first `K` indices. -/
noncomputable def bondAmp (e : NetEnv ν α β) {M N d : ℕ} (xs : List (LatticeSite M N)) (K : ℕ) (h v : ℕ → ℕ → Option ℕ)
    (s : NetState ν α β) (x : SpinConfig M N d) : α :=
  networkAmp e.nm e.c (withBond xs K h v).1 (withBond xs K h v).2 s x

/-- One term: the update multiplies the amplitudes with its operator and a factor, unless it divides by
zero; if it cuts, the amplitudes have only the first indices of the bond. -/
theorem term_step [IsStrictOrderedRing β] (he : NetEnvOk e) {M N d : ℕ} {s : NetState ν α β}
    {h v : ℕ → ℕ → Option ℕ} (hs : NetworkOn e.nm M N d s h v) {key : TermKey} {xs : List (LatticeSite M N)}
    (hx : TermOf key xs) {U : Tensor ν NoSymmetry α} (hU : OperatorOn d xs.length e.nm U) :
    ∃ K, ((∃ S ∈ environmentsAround s xs, ¬ NoZero S) → ∀ D, Keeps K D ∨ Cuts K D →
      ∃ st, updateTerm (netOps e D) U key (okState s) = .ok st ∧ Spoiled st) ∧
    ((∀ S ∈ environmentsAround s xs, NoZero S) →
      (∃ s' κ, κ ≠ 0 ∧ (∀ D, Keeps K D → updateTerm (netOps e D) U key (okState s) = .ok (okState s')) ∧
        NetworkOn e.nm M N d s' (withBond xs K h v).1 (withBond xs K h v).2 ∧
        (∀ x : SpinConfig M N d, bondAmp e xs K h v s' x =
          κ * actOn xs (matrixElement e.nm U) (networkAmp e.nm e.c h v s) x) ∧
        ∀ D, Cuts K D →
          (∃ s'' κ', κ' ≠ 0 ∧ updateTerm (netOps e D) U key (okState s) = .ok (okState s'') ∧
            NetworkOn e.nm M N d s'' (withBond xs D h v).1 (withBond xs D h v).2 ∧
            ∀ x : SpinConfig M N d, bondAmp e xs D h v s'' x = κ' * bondAmp e xs D h v s' x) ∨
          ((∃ st, updateTerm (netOps e D) U key (okState s) = .ok st ∧ Spoiled st) ∧
            ∀ x : SpinConfig M N d, bondAmp e xs D h v s' x = 0)) ∨
      ((∀ D, Keeps K D ∨ Cuts K D → ∃ st, updateTerm (netOps e D) U key (okState s) = .ok st ∧ Spoiled st) ∧
        ∀ x : SpinConfig M N d, actOn xs (matrixElement e.nm U) (networkAmp e.nm e.c h v s) x = 0)) := by
  have spoil : ∀ {st : UpdateState (Outcome (Tensor ν NoSymmetry α)) (Outcome (SingularTable β))} {b p q},
      SpoiledBond st b p q → Spoiled st := fun {st} {b} {p} {q} hh => ⟨p, fun t => by rw [hh.1]; simp⟩
  rcases hx with ⟨⟨⟨i, hi⟩, ⟨j, hj⟩⟩, rfl, rfl⟩ | ⟨⟨⟨i, hi⟩, ⟨j, hj⟩⟩, ⟨⟨i', hi'⟩, ⟨j', hj'⟩⟩, hn, rfl, hk⟩
  · obtain ⟨s', h1, h2, h3⟩ := single_step he hs hU hi hj
    refine ⟨0, fun hh => ?_, fun _ => Or.inl ⟨s', 1, one_ne_zero, fun D _ => ?_, h2, fun x => ?_, fun D hD => ?_⟩⟩
    · simp [environmentsAround] at hh
    · exact congrArg Outcome.ok (h1 D)
    · rw [one_mul]
      exact h3 x
    · exact absurd hD.2.2 (Nat.not_lt_zero _)
  · rcases hn with ⟨h1, h2⟩ | ⟨h1, h2⟩
    · have h1 : i = i' := h1
      have h2 : j + 1 = j' := h2
      subst h1
      subst h2
      have hb : IsBond key (.hor ((i : ℤ), (j : ℤ))) := hk
      have ha : environmentsAround s [((⟨i, hi⟩, ⟨j, hj⟩) : LatticeSite M N), (⟨i, hi'⟩, ⟨j + 1, hj'⟩)] =
          horizontalAround s i j := if_pos rfl
      have hw : ∀ K, withBond [((⟨i, hi⟩, ⟨j, hj⟩) : LatticeSite M N), (⟨i, hi'⟩, ⟨j + 1, hj'⟩)] K h v =
          (setDim h i (j + 1) K, v) := fun K => if_pos rfl
      simp only [bondAmp, hw]
      rw [ha]
      obtain ⟨K, k1, k2⟩ := horizontal_step he hs hU hi hj hj'
      refine ⟨K, fun hz D hD => ⟨_, updateTerm_bond _ _ hb _, spoil (k1 hz D hD)⟩, fun hz => ?_⟩
      rcases k2 hz with ⟨s', κ, q1, q2, q3, q4, q5⟩ | ⟨q1, q2⟩
      · refine Or.inl ⟨s', κ, q1, fun D hD => ?_, q3, q4, fun D hD => ?_⟩
        · rw [updateTerm_bond _ _ hb]
          exact congrArg _ (q2 D hD)
        · rcases q5 D hD with ⟨s'', κ', c1, c2, c3, c4⟩ | ⟨c1, c2⟩
          · exact Or.inl ⟨s'', κ', c1, by rw [updateTerm_bond _ _ hb]; exact congrArg _ c2, c3, c4⟩
          · exact Or.inr ⟨⟨_, updateTerm_bond _ _ hb _, spoil c1⟩, c2⟩
      · exact Or.inr ⟨fun D hD => ⟨_, updateTerm_bond _ _ hb _, spoil (q1 D hD)⟩, q2⟩
    · have h1 : i + 1 = i' := h1
      have h2 : j = j' := h2
      subst h1
      subst h2
      have hb : IsBond key (.ver ((i : ℤ), (j : ℤ))) := hk
      have ha : environmentsAround s [((⟨i, hi⟩, ⟨j, hj⟩) : LatticeSite M N), (⟨i + 1, hi'⟩, ⟨j, hj'⟩)] =
          verticalAround s i j := if_neg (by simp)
      have hw : ∀ K, withBond [((⟨i, hi⟩, ⟨j, hj⟩) : LatticeSite M N), (⟨i + 1, hi'⟩, ⟨j, hj'⟩)] K h v =
          (h, setDim v (i + 1) j K) := fun K => if_neg (by simp)
      simp only [bondAmp, hw]
      rw [ha]
      obtain ⟨K, k1, k2⟩ := vertical_step he hs hU hi hj hi'
      refine ⟨K, fun hz D hD => ⟨_, updateTerm_bond _ _ hb _, spoil (k1 hz D hD)⟩, fun hz => ?_⟩
      rcases k2 hz with ⟨s', κ, q1, q2, q3, q4, q5⟩ | ⟨q1, q2⟩
      · refine Or.inl ⟨s', κ, q1, fun D hD => ?_, q3, q4, fun D hD => ?_⟩
        · rw [updateTerm_bond _ _ hb]
          exact congrArg _ (q2 D hD)
        · rcases q5 D hD with ⟨s'', κ', c1, c2, c3, c4⟩ | ⟨c1, c2⟩
          · exact Or.inl ⟨s'', κ', c1, by rw [updateTerm_bond _ _ hb]; exact congrArg _ c2, c3, c4⟩
          · exact Or.inr ⟨⟨_, updateTerm_bond _ _ hb _, spoil c1⟩, c2⟩
      · exact Or.inr ⟨fun D hD => ⟨_, updateTerm_bond _ _ hb _, spoil (q1 D hD)⟩, q2⟩

end TAT
