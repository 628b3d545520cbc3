import Verif.Py.DispatchModel

/-!
# C80: which tensor class a text selects
-/

namespace TAT

theorem contain_mono {text : List Char} {w w' : String} (h : w'.toList <:+: w.toList)
    (hc : contain text w = true) : contain text w' = true := by
  simp only [contain, decide_eq_true_eq] at *
  exact h.trans hc

/-- What a text asks for, word by word: the scalar type. -/
def AsksScalar (text : List Char) : PyScalar → Prop
  | .S => "float32".toList <:+: text ∧ ¬ "complex".toList <:+: text
  | .D => "float".toList <:+: text ∧ ¬ "float32".toList <:+: text ∧ ¬ "complex".toList <:+: text
  | .C => "complex32".toList <:+: text ∧ ¬ "float".toList <:+: text
  | .Z => "complex".toList <:+: text ∧ ¬ "complex32".toList <:+: text ∧ ¬ "float".toList <:+: text

/-- What a text asks for: the symmetry. -/
def AsksGroup (text : List Char) (fermi : Bool) : PyGroup → Prop
  | .U1 => "U1".toList <:+: text ∧ ¬ "Z2".toList <:+: text ∧ ¬ "No".toList <:+: text
  | .Z2 => "Z2".toList <:+: text ∧ ¬ "U1".toList <:+: text ∧ ¬ "No".toList <:+: text
  | .No => fermi = false ∧ ¬ "U1".toList <:+: text ∧ ¬ "Z2".toList <:+: text
  | .none => fermi = true ∧ ¬ "U1".toList <:+: text ∧ ¬ "Z2".toList <:+: text

/-- What a text asks for: fermions or not. -/
def AsksFermi (text : List Char) : Bool → Prop
  | true => "Fermi".toList <:+: text ∧ ¬ "Bose".toList <:+: text
  | false => ¬ "Fermi".toList <:+: text

theorem hubScalar_iff (text : List Char) (s : PyScalar) :
    hubScalar text = .ok s ↔ AsksScalar text s := by
  have m1 := contain_mono (text := text) (w := "float32") (w' := "float") (by decide)
  have m2 := contain_mono (text := text) (w := "complex32") (w' := "complex") (by decide)
  have e : ∀ w : String, (w.toList <:+: text) = (contain text w = true) := by intro w; simp [contain]
  unfold hubScalar
  cases s <;> simp only [AsksScalar, e] <;>
    cases h1 : contain text "float" <;> cases h2 : contain text "float32" <;>
    cases h3 : contain text "complex" <;> cases h4 : contain text "complex32" <;>
    simp_all [Outcome.bind]

theorem hubGroup_iff (text : List Char) (f : Bool) (g : PyGroup) :
    hubGroup text f = .ok g ↔ AsksGroup text f g := by
  have e : ∀ w : String, (w.toList <:+: text) = (contain text w = true) := by intro w; simp [contain]
  unfold hubGroup
  cases f <;> cases g <;> simp only [AsksGroup, e] <;>
    cases h1 : contain text "U1" <;> cases h2 : contain text "Z2" <;> cases h3 : contain text "No" <;>
    simp [Outcome.bind]

theorem hubFermi_iff (text : List Char) (f : Bool) :
    hubFermi text = .ok f ↔ AsksFermi text f := by
  have e : ∀ w : String, (w.toList <:+: text) = (contain text w = true) := by intro w; simp [contain]
  unfold hubFermi
  cases f <;> simp only [AsksFermi, e] <;>
    cases h1 : contain text "Fermi" <;> cases h2 : contain text "Bose" <;> simp

/-- A text which does not mention `mpi` selects a class exactly when its words ask for one scalar type, one
symmetry, and fermions or not; every other text is refused. -/
theorem C80_hub (text : List Char) (s : PyScalar) (f : Bool) (g : PyGroup)
    (hm : ¬ "mpi".toList <:+: text) (hM : ¬ "MPI".toList <:+: text) :
    hub text = .ok (.tensor s f g) ↔ AsksScalar text s ∧ AsksFermi text f ∧ AsksGroup text f g := by
  rw [← hubScalar_iff, ← hubFermi_iff, ← hubGroup_iff]
  unfold hub
  rw [if_neg (by simp only [contain, Bool.or_eq_true, decide_eq_true_eq, hm, hM, or_self,
    not_false_eq_true])]
  cases h1 : hubFermi text with
  | error e => simp [Outcome.bind]
  | ub => simp [Outcome.bind]
  | ok f' =>
    cases h2 : hubGroup text f' with
    | error e => simp [Outcome.bind, h2]; intro _ h; subst h; simp [h2]
    | ub => simp [Outcome.bind, h2]; intro _ h; subst h; simp [h2]
    | ok g' =>
      cases h3 : hubScalar text with
      | error e => simp [Outcome.bind, h2]
      | ub => simp [Outcome.bind, h2]
      | ok s' =>
        simp only [Outcome.bind, h2]
        constructor
        · intro h
          injection h with h; injection h with a b c
          subst a; subst b; subst c
          exact ⟨rfl, rfl, h2⟩
        · rintro ⟨a, b, c⟩
          injection a with a; injection b with b
          subst a; subst b
          rw [h2] at c; injection c with c
          subst c; rfl

theorem hub_parts {text : List Char} {s : PyScalar} {f : Bool} {g : PyGroup}
    (h : hub text = .ok (.tensor s f g)) :
    hubFermi text = .ok f ∧ hubGroup text f = .ok g ∧ hubScalar text = .ok s := by
  unfold hub at h
  split at h
  · simp at h
  · cases h1 : hubFermi text with
    | error e => simp [h1, Outcome.bind] at h
    | ub => simp [h1, Outcome.bind] at h
    | ok f' =>
      cases h2 : hubGroup text f' with
      | error e => simp [h1, h2, Outcome.bind] at h
      | ub => simp [h1, h2, Outcome.bind] at h
      | ok g' =>
        cases h3 : hubScalar text with
        | error e => simp [h1, h2, h3, Outcome.bind] at h
        | ub => simp [h1, h2, h3, Outcome.bind] at h
        | ok s' =>
          simp only [h1, h2, h3, Outcome.bind] at h
          injection h with h; injection h with a b c
          subst a; subst b; subst c
          exact ⟨rfl, h2, rfl⟩

/-- Only declared classes are ever looked up. -/
theorem C80_declared (text : List Char) (s : PyScalar) (f : Bool) (g : PyGroup)
    (h : hub text = .ok (.tensor s f g)) : className s f g ∈ declaredClasses := by
  have hg := (hub_parts h).2.1
  rw [hubGroup_iff] at hg
  have : (f = false ∧ g ≠ .none) ∨ (f = true ∧ g ≠ .No) := by
    cases f <;> cases g <;> simp_all [AsksGroup]
  clear h hg
  cases s <;> cases f <;> cases g <;> first | decide | simp at this

/-- When a text selects a class, `to` given the same text converts to the scalar type of that class. -/
theorem C80_agree (text : List Char) (s : PyScalar) (f : Bool) (g : PyGroup)
    (h : hub text = .ok (.tensor s f g)) : toScalar text = .ok s := by
  have hs := (hub_parts h).2.2
  rw [hubScalar_iff] at hs
  have m1 := contain_mono (text := text) (w := "float32") (w' := "float") (by decide)
  have m2 := contain_mono (text := text) (w := "complex32") (w' := "complex") (by decide)
  have e : ∀ w : String, (w.toList <:+: text) = (contain text w = true) := by intro w; simp [contain]
  unfold toScalar
  cases s <;> simp only [AsksScalar, e] at hs <;>
    cases h1 : contain text "float" <;> cases h2 : contain text "float32" <;>
    cases h3 : contain text "complex" <;> cases h4 : contain text "complex32" <;> simp_all

/-- No text is undefined behaviour, and a text which mentions `mpi` selects that module. -/
theorem C80_total (text : List Char) : hub text ≠ .ub ∧ toScalar text ≠ .ub ∧
    ("mpi".toList <:+: text ∨ "MPI".toList <:+: text ↔ hub text = .ok .mpi) := by
  have e : ∀ w : String, (w.toList <:+: text) = (contain text w = true) := by intro w; simp [contain]
  have h1 : hubFermi text ≠ .ub := by unfold hubFermi; simp only; split <;> simp
  have h2 : ∀ f, hubGroup text f ≠ .ub := by
    intro f
    unfold hubGroup
    cases f <;> cases contain text "U1" <;> cases contain text "Z2" <;> cases contain text "No" <;>
      simp [Outcome.bind]
  have h3 : hubScalar text ≠ .ub := by
    unfold hubScalar
    cases contain text "float" <;> cases contain text "float32" <;> cases contain text "complex" <;>
      cases contain text "complex32" <;> simp [Outcome.bind]
  refine ⟨?_, ?_, ?_⟩
  · unfold hub
    split
    · simp
    · cases a : hubFermi text with
      | error e => simp [Outcome.bind]
      | ub => exact absurd a h1
      | ok f =>
        cases b : hubGroup text f with
        | error e => simp [Outcome.bind, b]
        | ub => exact absurd b (h2 f)
        | ok g =>
          cases c : hubScalar text with
          | error e => simp [Outcome.bind, b]
          | ub => exact absurd c h3
          | ok s => simp [Outcome.bind, b]
  · unfold toScalar
    repeat' split
    all_goals simp
  · rw [e, e]
    unfold hub
    by_cases hm : (contain text "mpi" || contain text "MPI") = true
    · rw [if_pos hm]
      simpa using hm
    · rw [if_neg hm]
      have : ¬ (contain text "mpi" = true ∨ contain text "MPI" = true) := by simpa using hm
      refine ⟨fun h => absurd h this, fun h => ?_⟩
      exfalso
      cases a : hubFermi text with
      | error e => simp [a, Outcome.bind] at h
      | ub => exact absurd a h1
      | ok f =>
        cases b : hubGroup text f with
        | error e => simp [a, b, Outcome.bind] at h
        | ub => exact absurd b (h2 f)
        | ok g =>
          cases c : hubScalar text with
          | error e => simp [a, b, c, Outcome.bind] at h
          | ub => exact absurd c h3
          | ok s => simp [a, b, c, Outcome.bind] at h

/-- The letter of every scalar type is understood by `to`. -/
theorem C80_letters : ∀ s : PyScalar, toScalar s.text.toList = .ok s := by
  intro s
  cases s <;> decide +kernel

/-- The words for a class. -/
def classWords (s : PyScalar) (f : Bool) (g : PyGroup) : String :=
  (match s with | .S => "float32" | .D => "float" | .C => "complex32" | .Z => "complex") ++
    (if f then " Fermi " else " Bose ") ++ g.text

/-- Every declared class can be selected. -/
theorem C80_reached : ∀ (s : PyScalar) (f : Bool) (g : PyGroup), className s f g ∈ declaredClasses →
    hub (classWords s f g).toList = .ok (.tensor s f g) := by
  intro s f g
  cases s <;> cases f <;> cases g <;> decide +kernel

/-- Contradicting words are refused. -/
theorem C80_refused : hub "float complex".toList = .error "Scalar Ambiguous" ∧
    hub "U1".toList = .error "Scalar Ambiguous" ∧
    hub "float U1 Z2".toList = .error "Symmetry Ambiguous" ∧
    hub "float U1 No".toList = .error "Symmetry Ambiguous" ∧
    hub "float Bose Fermi".toList = .error "Fermi Ambiguous" ∧
    toScalar "int".toList = .error "Invalid scalar type in type conversion" := by decide +kernel

/-- numpy calls a pair of floats `complex64`.  That word selects pairs of doubles here (`complex32` selects
pairs of floats). -/
theorem C80_numpy : toScalar "complex64".toList = .ok .Z ∧
    hub "complex64 No".toList = .ok (.tensor .Z false .No) ∧
    toScalar "complex32".toList = .ok .C ∧ toScalar "float64".toList = .ok .D ∧
    toScalar "float32".toList = .ok .S := by decide +kernel

/-- `TAT(float, "Fermi", "U1")`: the text Python makes of the arguments. -/
example : hub "((<class 'float'>, 'Fermi', 'U1'), {})".toList = .ok (.tensor .D true .U1) ∧
    className .D true .U1 = "DFermiU1" ∧ "DFermiU1" ∈ declaredClasses := by decide +kernel

/-- A `None` among the arguments counts as `No`. -/
example : hub "((<class 'float'>, 'U1', None), {})".toList = .error "Symmetry Ambiguous" := by
  decide +kernel

end TAT
