import Verif.Square.GradHole

/-!
# The steps of `markov`
-/

namespace TAT

set_option linter.unusedSectionVars false

variable {ν α β R : Type} [LinearOrder ν] [Field α] [LinearOrder β] [Field β] {e : NetEnv ν α β}
  {M N d : ℕ} {lattice : ℕ → ℕ → Tensor ν NoSymmetry α} {h v : ℕ → ℕ → Option ℕ} {cut : ℕ}

/-! ## Loops over the sites -/

theorem forSites_list {A : Type} {f : LatticeSite M N → Outcome A} (l : List (LatticeSite M N)) (hl : l.Nodup)
    {init g : LatticeSite M N → A}
    (hg : l.foldlM (fun g x => (f x).bind fun a => .ok (Function.update g x a)) init = .ok g) :
    (∀ x ∈ l, f x = .ok (g x)) ∧ ∀ x, x ∉ l → g x = init x := by
  induction l generalizing init with
  | nil =>
    obtain rfl := Outcome.ok.inj hg
    exact ⟨fun x hx => by simp at hx, fun _ _ => rfl⟩
  | cons y l ih =>
    rw [List.nodup_cons] at hl
    rw [List.foldlM_cons] at hg
    obtain ⟨g1, h1, h2⟩ := bind_ok hg
    obtain ⟨a, h3, h4⟩ := bind_ok h1
    obtain ⟨i1, i2⟩ := ih hl.2 h2
    have hg1 := (Outcome.ok.inj h4).symm
    refine ⟨fun x hx => ?_, fun x hx => ?_⟩
    · rcases List.mem_cons.1 hx with rfl | hx
      · rw [h3, i2 x hl.1, hg1, Function.update_self]
      · exact i1 x hx
    · rw [List.mem_cons, not_or] at hx
      rw [i2 x hx.2, hg1, Function.update_of_ne hx.1]

theorem forSites_spec {A : Type} {f : LatticeSite M N → Outcome A} {init g : LatticeSite M N → A}
    (hg : forSites f init = .ok g) (x : LatticeSite M N) : f x = .ok (g x) :=
  (forSites_list _ ((latticeSites_before M N).imp siteBefore_ne) hg).1 x (mem_latticeSites x)

theorem forSites_ok {A : Type} {f : LatticeSite M N → Outcome A} {g : LatticeSite M N → A}
    (hf : ∀ x, f x = .ok (g x)) (init : LatticeSite M N → A) : forSites f init = .ok g := by
  obtain ⟨g', hg'⟩ := foldlM_ok_of (fun (g : LatticeSite M N → A) x => (f x).bind fun a => .ok (Function.update g x a))
    (latticeSites M N) (fun k x _ => ⟨Function.update k x (g x), by rw [hf]; rfl⟩) init
  have h1 : forSites f init = .ok g' := hg'
  rw [h1]
  congr 1
  funext x
  exact Outcome.ok.inj ((forSites_spec h1 x).symm.trans (hf x))

/-! ## Terms -/

/-- The operations which leave the local values as they are. -/
def plainOps (α : Type) [Field α] : ScalarOps α α := ⟨id, fun x => x * x⟩

theorem sampleTerm_eq [DecidableEq α] [Field R] {ops : ScalarOps α R} (h0 : ops.re 0 = 0)
    (hadd : ∀ a b, ops.re (a + b) = ops.re a + ops.re b) (st : SpinState M N ν α) (ws Es : α) (o : Observer α) :
    SameOutcome (fun s a => s = (if o.energy then Es + a else Es, ops.re a))
      (sampleTerm e ops cut lattice st ws Es o)
      (spinTerm e (plainOps α) cut lattice st ws o.table o.positions) := by
  rw [sampleTerm, spinTerm]
  refine SameOutcome.bind (SameOutcome.refl _) fun xs xs' hx => ?_
  subst hx
  refine SameOutcome.bind (SameOutcome.refl _) fun ss ss' hs => ?_
  subst hs
  refine SameOutcome.bind (SameOutcome.refl _) fun row row' hr => ?_
  subst hr
  refine SameOutcome.foldlM (fun s a el _ hsa => ?_) ?_
  · subst hsa
    rw [sampleElement, spinElement]
    by_cases hl : el.1.length < o.positions.length
    · rw [if_pos hl, if_pos hl]
      trivial
    · rw [if_neg hl, if_neg hl]
      refine SameOutcome.bind (SameOutcome.refl _) fun w w' hw => ?_
      subst hw
      refine SameOutcome.bind (SameOutcome.refl _) fun q q' hq => ?_
      subst hq
      show _ = _
      dsimp only [plainOps, id]
      rw [hadd]
      cases o.energy <;> simp [add_assoc]
  · rw [h0]
    cases o.energy <;> simp

/-- The term which the code observes. -/
def termOf (o : Bool × Observable M N α) : Observer α := ⟨o.1, o.2.table, o.2.positions⟩

variable {w : SpinConfig M N d → α}

theorem observe_local [DecidableEq α] {o : Observable M N α} (ho : ObservableOk d o) {c : SpinConfig M N d} {a : α}
    (ha : observeTerm (plainOps α) w c (w c) o.table o.positions = .ok a) : w c ≠ 0 ∧ a = localValue w o c := by
  obtain ⟨hd, hb, -⟩ := findElement_for ho.table
  obtain ⟨t', ht', htab⟩ := findElement_spec hd hb o.value
  obtain ht := Outcome.ok.inj (ho.table.symm.trans ht')
  rw [ht] at ha
  classical
  obtain ⟨h1, h2⟩ := observeTerm_spec (C56_real_laws (K := α)) w c htab ho.sites rfl ho.nodup ha
  refine ⟨h1, ?_⟩
  have h3 : a * (w c * w c) = localSum (plainOps α) id w o.value o.sites c := h2
  have h4 : a = localSum (plainOps α) id w o.value o.sites c / (w c * w c) := by
    rw [← h3]
    field_simp
  rw [h4, localSum, localValue, Finset.sum_div]
  refine Finset.sum_congr rfl fun c' _ => ?_
  by_cases hc : ∀ x, x ∉ o.sites → c x = c' x
  · rw [if_pos hc, if_pos (show Agrees o.sites c c' from hc)]
    simp only [plainOps, id, spinsAt]
    field_simp
  · rw [if_neg hc, if_neg (show ¬Agrees o.sites c c' from hc), zero_div]

theorem sampleTerm_spec [DecidableEq α] [Field R] {ops : ScalarOps α R} {conj : α → α} (laws : ScalarLaws ops conj)
    (hw : ComputesAmp e cut lattice w) {st : SpinState M N ν α} {c : SpinConfig M N d}
    (hst : HasSpins e lattice st c) {o : Bool × Observable M N α} (ho : ObservableOk d o.2) (Es : α) :
    (∀ s, sampleTerm e ops cut lattice st (w c) Es (termOf o) = .ok s → w c ≠ 0 ∧
      s = (if o.1 then Es + localValue w o.2 c else Es, ops.re (localValue w o.2 c))) ∧
    ((∃ a, observeTerm (plainOps α) w c (w c) o.2.table o.2.positions = .ok a) →
      sampleTerm e ops cut lattice st (w c) Es (termOf o) =
        .ok (if o.1 then Es + localValue w o.2 c else Es, ops.re (localValue w o.2 c))) := by
  have h1 := sampleTerm_eq (e := e) (cut := cut) (lattice := lattice) laws.re_zero laws.re_add st (w c) Es (termOf o)
  rw [show (termOf o).table = o.2.table from rfl, show (termOf o).positions = o.2.positions from rfl,
    spinTerm_ok hw hst ho.sites (findElement_for ho.table).2.2] at h1
  constructor
  · intro s hs
    rw [hs] at h1
    cases hob : observeTerm (plainOps α) w c (w c) o.2.table o.2.positions with
    | ok a =>
      rw [hob] at h1
      obtain ⟨k1, k2⟩ := observe_local ho hob
      refine ⟨k1, ?_⟩
      rw [← k2]
      exact h1
    | error m => rw [hob] at h1; exact h1.elim
    | ub => rw [hob] at h1; exact h1.elim
  · rintro ⟨a, ha⟩
    rw [ha] at h1
    cases hs : sampleTerm e ops cut lattice st (w c) Es (termOf o) with
    | ok s =>
      rw [hs] at h1
      rw [← (observe_local ho ha).2]
      exact congrArg _ h1
    | error m => rw [hs] at h1; exact h1.elim
    | ub => rw [hs] at h1; exact h1.elim

/-- The energy of a configuration: the sum of the local values of the terms of the energy. -/
def energyOf (w : SpinConfig M N d → α) (os : List (Bool × Observable M N α)) (c : SpinConfig M N d) : α :=
  (os.map fun o => if o.1 then localValue w o.2 c else 0).sum

/-- The sums of the terms. -/
def sumsOf (os : List (Bool × Observable M N α)) (A B : Bool × Observable M N α → R) : List (Observer α × R × R) :=
  os.map fun o => (termOf o, A o, B o)

theorem sampleTerms_spec [DecidableEq α] [Field R] {ops : ScalarOps α R} {conj : α → α} (laws : ScalarLaws ops conj)
    (hw : ComputesAmp e cut lattice w) {st : SpinState M N ν α} {c : SpinConfig M N d}
    (hst : HasSpins e lattice st c) {os : List (Bool × Observable M N α)} (ho : ∀ o ∈ os, ObservableOk d o.2)
    (A B : Bool × Observable M N α → R) (Es : α) :
    (∀ s, sampleTerms e ops cut lattice st (w c) Es (sumsOf os A B) = .ok s → (os ≠ [] → w c ≠ 0) ∧
      s = (Es + energyOf w os c, sumsOf os (fun o => A o + ops.re (localValue w o.2 c))
        fun o => B o + ops.re (localValue w o.2 c) * ops.re (localValue w o.2 c))) ∧
    ((∀ o ∈ os, ∃ a, observeTerm (plainOps α) w c (w c) o.2.table o.2.positions = .ok a) →
      ∃ s, sampleTerms e ops cut lattice st (w c) Es (sumsOf os A B) = .ok s) := by
  induction os generalizing Es with
  | nil =>
    refine ⟨fun s hs => ⟨fun hn => absurd rfl hn, ?_⟩, fun _ => ⟨_, rfl⟩⟩
    rw [← Outcome.ok.inj hs]
    simp [energyOf, sumsOf]
  | cons o os ih =>
    have ho' : ∀ o ∈ os, ObservableOk d o.2 := fun o h => ho o (List.mem_cons_of_mem _ h)
    obtain ⟨t1, t2⟩ := sampleTerm_spec laws hw hst (ho o List.mem_cons_self) Es
    constructor
    · intro s hs
      obtain ⟨s1, h1, hs⟩ := bind_ok hs
      obtain ⟨k1, rfl⟩ := t1 s1 h1
      obtain ⟨r, h2, hs⟩ := bind_ok hs
      obtain ⟨-, rfl⟩ := (ih ho' _).1 r h2
      refine ⟨fun _ => k1, ?_⟩
      rw [← Outcome.ok.inj hs]
      refine Prod.ext ?_ rfl
      simp only [energyOf, List.map_cons, List.sum_cons]
      cases o.1 <;> simp [add_assoc]
    · intro hob
      obtain ⟨r, hr⟩ := (ih ho' (if o.1 then Es + localValue w o.2 c else Es)).2
        fun o h => hob o (List.mem_cons_of_mem _ h)
      have h1 := t2 (hob o List.mem_cons_self)
      show ∃ s, (sampleTerm e ops cut lattice st (w c) Es (termOf o)).bind _ = _
      rw [h1]
      show ∃ s, (sampleTerms e ops cut lattice st (w c) _ (sumsOf os A B)).bind _ = _
      rw [hr]
      exact ⟨_, rfl⟩

/-! ## Tensors with the edges of a site -/

theorem SiteEdges.same {nm : String → ν} {t r : Tensor ν NoSymmetry α} {a b c d' : Option ℕ} {p : ℕ}
    (ht : SiteEdges nm t a b c d' p) (hr : Dense r) (hl : ∀ n, leg r n = leg t n) : SiteEdges nm r a b c d' p :=
  ⟨hr, (hl _).trans ht.left, (hl _).trans ht.right, (hl _).trans ht.up, (hl _).trans ht.down, (hl _).trans ht.phys,
    fun n hn => ht.only n (by rwa [hl] at hn)⟩

theorem SiteEdges.leg_eq {nm : String → ν} {t r : Tensor ν NoSymmetry α} {a b c d' : Option ℕ} {p : ℕ}
    (ht : SiteEdges nm t a b c d' p) (hr : SiteEdges nm r a b c d' p) (n : ν) : leg r n = leg t n := by
  by_cases h1 : leg t n = none
  · by_cases h2 : leg r n = none
    · rw [h1, h2]
    · rcases hr.only n h2 with rfl | rfl | rfl | rfl | rfl
      · rw [ht.left, hr.left]
      · rw [ht.right, hr.right]
      · rw [ht.up, hr.up]
      · rw [ht.down, hr.down]
      · rw [ht.phys, hr.phys]
  · rcases ht.only n h1 with rfl | rfl | rfl | rfl | rfl
    · rw [ht.left, hr.left]
    · rw [ht.right, hr.right]
    · rw [ht.up, hr.up]
    · rw [ht.down, hr.down]
    · rw [ht.phys, hr.phys]

/-! ## Steps -/

/-- What is used of the auxiliaries; `O` are the holes. -/
structure SamplesOn [DecidableEq α] [Field R] [LinearOrder R] (e : NetEnv ν α β) (ops : GradOps α R)
    (lattice : ℕ → ℕ → Tensor ν NoSymmetry α) (h v : ℕ → ℕ → Option ℕ) (d cut : ℕ)
    (hop : List ((ElementTable α × List Pos) × Char)) (w : SpinConfig M N d → α)
    (O : LatticeSite M N → SpinConfig M N d → Tensor ν NoSymmetry α) : Prop where
  amp : ComputesAmp e cut lattice w
  hole : ∀ x c, ∀ st : SpinState M N ν α, HasSpins e lattice st c →
    siteHole e ops d cut st (w c) x = if w c = 0 then .error "nan" else .ok (O x c)
  edges : ∀ x c, w c ≠ 0 → EdgesAt e.nm h v d x (O x c)
  sweep : ∀ (st : SpinState M N ν α) (c : SpinConfig M N d) (ws : α),
      HasSpins e lattice st c → ∀ random : ℕ → ℕ × R,
      SameOutcome (fun s s' => HasSpins e lattice s.1 s'.1 ∧ s.2 = s'.2)
        (spinMarkovSweep e ops.toScalarOps cut lattice hop (st, ws) random)
        (markovSweep ops.toScalarOps w (hop.map Prod.fst) (c, ws) random)

variable [DecidableEq α] [Field R] [LinearOrder R] {ops : GradOps α R} {conj : α →+* α}
  {hop : List ((ElementTable α × List Pos) × Char)}
  {O : LatticeSite M N → SpinConfig M N d → Tensor ν NoSymmetry α}

theorem SamplesOn.step (hS : SamplesOn e ops lattice h v d cut hop w O) {st : SpinState M N ν α}
    {c : SpinConfig M N d} (hst : HasSpins e lattice st c) (random : ℕ → ℕ × R) :
    (∀ p, spinMarkovSweep e ops.toScalarOps cut lattice hop (st, w c) random = .ok p →
      ∃ c', markovSweep ops.toScalarOps w (hop.map Prod.fst) (c, w c) random = .ok (c', w c') ∧
        HasSpins e lattice p.1 c' ∧ p.2 = w c') ∧
    ∀ c', markovSweep ops.toScalarOps w (hop.map Prod.fst) (c, w c) random = .ok (c', w c') →
      ∃ p, spinMarkovSweep e ops.toScalarOps cut lattice hop (st, w c) random = .ok p ∧
        HasSpins e lattice p.1 c' ∧ p.2 = w c' := by
  have h1 := hS.sweep st c (w c) hst random
  constructor
  · intro p hp
    rw [hp] at h1
    cases hm : markovSweep ops.toScalarOps w (hop.map Prod.fst) (c, w c) random with
    | ok s =>
      rw [hm] at h1
      have h2 := C57_amplitude _ _ _ _ _ _ hm
      exact ⟨s.1, by rw [← h2], h1.1, h1.2.trans h2⟩
    | error m => rw [hm] at h1; exact h1.elim
    | ub => rw [hm] at h1; exact h1.elim
  · intro c' hc'
    rw [hc'] at h1
    cases hp : spinMarkovSweep e ops.toScalarOps cut lattice hop (st, w c) random with
    | ok p =>
      rw [hp] at h1
      exact ⟨p, rfl, h1⟩
    | error m => rw [hp] at h1; exact h1.elim
    | ub => rw [hp] at h1; exact h1.elim

/-- Two sums of tensors with the edges of the site. -/
def HolesOn (nm : String → ν) (h v : ℕ → ℕ → Option ℕ) (d : ℕ)
    (s : LatticeSite M N → Tensor ν NoSymmetry α × Tensor ν NoSymmetry α) (F G : LatticeSite M N → (ν → ℕ) → α) :
    Prop :=
  ∀ x, (EdgesAt nm h v d x (s x).1 ∧ ∀ y, val (s x).1 y = F x y) ∧ EdgesAt nm h v d x (s x).2 ∧
    ∀ y, val (s x).2 y = G x y

theorem addHoles_spec (hS : SamplesOn e ops lattice h v d cut hop w O) {st : SpinState M N ν α}
    {c : SpinConfig M N d} (hst : HasSpins e lattice st c) (hw : w c ≠ 0) (Es : α)
    {s : LatticeSite M N → Tensor ν NoSymmetry α × Tensor ν NoSymmetry α} {F G : LatticeSite M N → (ν → ℕ) → α}
    (hs : HolesOn e.nm h v d s F G) :
    ∃ s', addHoles e ops d cut st (w c) Es s = .ok s' ∧
      HolesOn e.nm h v d s' (fun x y => F x y + val (O x c) y * Es) fun x y => G x y + val (O x c) y := by
  have key : ∀ x, ∃ q : Tensor ν NoSymmetry α × Tensor ν NoSymmetry α,
      ((siteHole e ops d cut st (w c) x).bind fun hole =>
        (scalarNumber e.junk (fun y => y * Es) hole).bind fun t =>
        (scalarInplace ops.env (· + ·) (s x).1 t).bind fun a =>
        (scalarInplace ops.env (· + ·) (s x).2 hole).bind fun b => .ok (a, b)) = .ok q ∧
      (EdgesAt e.nm h v d x q.1 ∧ ∀ y, val q.1 y = F x y + val (O x c) y * Es) ∧ EdgesAt e.nm h v d x q.2 ∧
        ∀ y, val q.2 y = G x y + val (O x c) y := by
    intro x
    have hO := hS.edges x c hw
    obtain ⟨⟨k1, k2⟩, k3, k4⟩ := hs x
    obtain ⟨t, t1, t2, t3, t4⟩ := dense_scalarNumber e.junk (f := fun y => y * Es) hO.dense (zero_mul _)
    obtain ⟨a, a1, a2, a3, a4⟩ := dense_inplace ops.env (op := (· + ·)) (add_zero 0) k1.dense t2 fun n => by
      rw [t3]; exact SiteEdges.leg_eq k1 hO n
    obtain ⟨b, b1, b2, b3, b4⟩ := dense_inplace ops.env (op := (· + ·)) (add_zero 0) k3.dense hO.dense fun n =>
      SiteEdges.leg_eq k3 hO n
    refine ⟨(a, b), ?_, ⟨SiteEdges.same k1 a2 a3, fun y => ?_⟩, SiteEdges.same k3 b2 b3, fun y => ?_⟩
    · rw [hS.hole x c st hst, if_neg hw, Outcome.bind, t1, Outcome.bind, a1, Outcome.bind, b1, Outcome.bind]
    · dsimp only
      rw [a4, t4, k2]
    · dsimp only
      rw [b4, k4]
  choose s' hs' using key
  exact ⟨s', forSites_ok (fun x => (hs' x).1) s, fun x => (hs' x).2⟩

theorem addHoles_zero (hS : SamplesOn e ops lattice h v d cut hop w O) {st : SpinState M N ν α}
    {c : SpinConfig M N d} (hst : HasSpins e lattice st c) (hM : 0 < M) (hN : 0 < N) (Es : α)
    {s s' : LatticeSite M N → Tensor ν NoSymmetry α × Tensor ν NoSymmetry α}
    (hs : addHoles e ops d cut st (w c) Es s = .ok s') : w c ≠ 0 := by
  intro hw
  have h1 := forSites_spec hs (⟨0, hM⟩, ⟨0, hN⟩)
  rw [hS.hole _ c st hst, if_pos hw] at h1
  cases h1

/-- The state of `markov` after some steps: the sums over the configurations. -/
structure SumsOn (e : NetEnv ν α β) (lattice : ℕ → ℕ → Tensor ν NoSymmetry α) (h v : ℕ → ℕ → Option ℕ) (d : ℕ)
    (w : SpinConfig M N d → α) (gradient : Bool) (os : List (Bool × Observable M N α)) (s : MarkovState M N ν α R)
    (c : SpinConfig M N d) (A B : Bool × Observable M N α → R) (E : α) (F G : LatticeSite M N → (ν → ℕ) → α) :
    Prop where
  spin : HasSpins e lattice s.spin c
  ws : s.ws = w c
  sums : s.sums = sumsOf os A B
  sumEs : s.sumEs = E
  holes : gradient = true → HolesOn e.nm h v d s.holes F G

variable {os : List (Bool × Observable M N α)} {gradient : Bool}

theorem sampleStep_spec (laws : ScalarLaws ops.toScalarOps conj) (hS : SamplesOn e ops lattice h v d cut hop w O)
    (hM : 0 < M) (hN : 0 < N) (ho : ∀ o ∈ os, ObservableOk d o.2) {s : MarkovState M N ν α R}
    {c : SpinConfig M N d} {A B : Bool × Observable M N α → R} {E : α} {F G : LatticeSite M N → (ν → ℕ) → α}
    (hs : SumsOn e lattice h v d w gradient os s c A B E F G) (random : ℕ → ℕ × R) :
    (∀ s', observeStep e ops d cut lattice hop gradient s random = .ok s' →
      ∃ c', markovSweep ops.toScalarOps w (hop.map Prod.fst) (c, w c) random = .ok (c', w c') ∧
        (os ≠ [] ∨ gradient = true → w c' ≠ 0) ∧
        SumsOn e lattice h v d w gradient os s' c' (fun o => A o + ops.re (localValue w o.2 c'))
          (fun o => B o + ops.re (localValue w o.2 c') * ops.re (localValue w o.2 c'))
          (if gradient then E + energyOf w os c' else E)
          (fun x y => F x y + val (O x c') y * energyOf w os c') fun x y => G x y + val (O x c') y) ∧
    ∀ c', markovSweep ops.toScalarOps w (hop.map Prod.fst) (c, w c) random = .ok (c', w c') → w c' ≠ 0 →
      (∀ o ∈ os, ∃ a, observeTerm (plainOps α) w c' (w c') o.2.table o.2.positions = .ok a) →
      ∃ s', observeStep e ops d cut lattice hop gradient s random = .ok s' := by
  obtain ⟨k1, k2⟩ := hS.step hs.spin random
  constructor
  · intro s' hs'
    rw [observeStep, hs.ws] at hs'
    obtain ⟨p, h1, hs'⟩ := bind_ok hs'
    obtain ⟨c', h2, h3, h4⟩ := k1 p h1
    rw [h4, hs.sums] at hs'
    obtain ⟨r, h5, hs'⟩ := bind_ok hs'
    obtain ⟨h6, rfl⟩ := (sampleTerms_spec laws hS.amp h3 ho A B 0).1 r h5
    refine ⟨c', h2, ?_⟩
    cases hg : gradient with
    | false =>
      rw [if_neg (by rw [hg]; simp)] at hs'
      rw [← Outcome.ok.inj hs']
      refine ⟨fun h => h6 (h.resolve_right (by simp)), h3, rfl, rfl, ?_, fun h => by cases h⟩
      exact hs.sumEs
    | true =>
      rw [if_pos hg] at hs'
      obtain ⟨q, h7, hs'⟩ := bind_ok hs'
      have hw := addHoles_zero hS h3 hM hN _ h7
      obtain ⟨q', h8, h9⟩ := addHoles_spec hS h3 hw (0 + energyOf w os c') (hs.holes hg)
      obtain rfl := Outcome.ok.inj (h7.symm.trans h8)
      rw [← Outcome.ok.inj hs']
      refine ⟨fun _ => hw, h3, rfl, rfl, ?_, fun _ => ?_⟩
      · rw [if_pos rfl, zero_add, hs.sumEs]
      · simpa only [zero_add] using h9
  · intro c' hc' hw hob
    obtain ⟨p, h1, h3, h4⟩ := k2 c' hc'
    obtain ⟨h5, h6⟩ := sampleTerms_spec laws hS.amp h3 ho A B 0
    obtain ⟨r, hr⟩ := h6 hob
    rw [observeStep, hs.ws, h1, Outcome.bind, h4, hs.sums, hr, Outcome.bind]
    cases hg : gradient with
    | false => exact ⟨_, if_neg (by simp)⟩
    | true =>
      obtain ⟨q', h8, h9⟩ := addHoles_spec hS h3 hw r.1 (hs.holes hg)
      exact ⟨_, by rw [if_pos rfl, h8]; rfl⟩

/-- Several steps. -/
theorem sampleSteps_spec (laws : ScalarLaws ops.toScalarOps conj) (hS : SamplesOn e ops lattice h v d cut hop w O)
    (hM : 0 < M) (hN : 0 < N) (ho : ∀ o ∈ os, ObservableOk d o.2) (random : ℕ → ℕ → ℕ × R) (n : ℕ) (k : ℕ)
    {s : MarkovState M N ν α R} {c : SpinConfig M N d} {A B : Bool × Observable M N α → R} {E : α}
    {F G : LatticeSite M N → (ν → ℕ) → α} (hs : SumsOn e lattice h v d w gradient os s c A B E F G)
    (s' : MarkovState M N ν α R)
    (hs' : (List.range' k n).foldlM (fun s step => observeStep e ops d cut lattice hop gradient s (random step)) s =
      .ok s') :
    ∃ cs : List (SpinConfig M N d), cs.length = n ∧ Visits ops.toScalarOps w (hop.map Prod.fst) random c k cs ∧
      (os ≠ [] ∨ gradient = true → ∀ c' ∈ cs, w c' ≠ 0) ∧
      SumsOn e lattice h v d w gradient os s' (cs.getLastD c)
        (fun o => A o + (cs.map fun c' => ops.re (localValue w o.2 c')).sum)
        (fun o => B o + (cs.map fun c' => ops.re (localValue w o.2 c') * ops.re (localValue w o.2 c')).sum)
        (if gradient then E + (cs.map (energyOf w os)).sum else E)
        (fun x y => F x y + (cs.map fun c' => val (O x c') y * energyOf w os c').sum)
        fun x y => G x y + (cs.map fun c' => val (O x c') y).sum := by
  induction n generalizing k s c A B E F G with
  | zero =>
    rw [← Outcome.ok.inj hs']
    refine ⟨[], rfl, trivial, fun _ c' hc' => by simp at hc', ?_⟩
    simpa using hs
  | succ n ih =>
    rw [List.range'_succ, List.foldlM_cons] at hs'
    obtain ⟨s1, h1, h2⟩ := bind_ok hs'
    obtain ⟨c1, h3, h4, h5⟩ := (sampleStep_spec laws hS hM hN ho hs (random k)).1 s1 h1
    obtain ⟨cs, i1, i2, i3, i4⟩ := ih (k + 1) h5 h2
    refine ⟨c1 :: cs, by rw [List.length_cons, i1], ⟨h3, i2⟩, fun hx c' hc' => ?_, ?_⟩
    · rcases List.mem_cons.1 hc' with rfl | hc'
      · exact h4 hx
      · exact i3 hx c' hc'
    · rw [List.getLastD_cons]
      simp only [List.map_cons, List.sum_cons, ← add_assoc]
      convert i4 using 1
      split <;> rfl

theorem sampleSteps_returns (laws : ScalarLaws ops.toScalarOps conj)
    (hS : SamplesOn e ops lattice h v d cut hop w O)
    (hM : 0 < M) (hN : 0 < N) (ho : ∀ o ∈ os, ObservableOk d o.2) (random : ℕ → ℕ → ℕ × R)
    (cs : List (SpinConfig M N d)) (k : ℕ)
    {s : MarkovState M N ν α R} {c : SpinConfig M N d} {A B : Bool × Observable M N α → R} {E : α}
    {F G : LatticeSite M N → (ν → ℕ) → α} (hs : SumsOn e lattice h v d w gradient os s c A B E F G)
    (hv : Visits ops.toScalarOps w (hop.map Prod.fst) random c k cs) (hw : ∀ c' ∈ cs, w c' ≠ 0)
    (hob : ∀ c' ∈ cs, ∀ o ∈ os, ∃ a, observeTerm (plainOps α) w c' (w c') o.2.table o.2.positions = .ok a) :
    ∃ s', (List.range' k cs.length).foldlM
      (fun s step => observeStep e ops d cut lattice hop gradient s (random step)) s = .ok s' := by
  induction cs generalizing k s c A B E F G with
  | nil => exact ⟨s, rfl⟩
  | cons c1 cs ih =>
    obtain ⟨v1, v2⟩ := hv
    obtain ⟨k1, k2⟩ := sampleStep_spec laws hS hM hN ho hs (random k)
    obtain ⟨s1, h1⟩ := k2 c1 v1 (hw c1 List.mem_cons_self) (hob c1 List.mem_cons_self)
    obtain ⟨c2, h2, -, h3⟩ := k1 s1 h1
    have hc : c2 = c1 := congrArg Prod.fst (Outcome.ok.inj (h2.symm.trans v1))
    subst hc
    obtain ⟨s', h4⟩ := ih (k + 1) h3 v2 (fun c' hc' => hw c' (List.mem_cons_of_mem _ hc'))
      fun c' hc' => hob c' (List.mem_cons_of_mem _ hc')
    refine ⟨s', ?_⟩
    rw [List.length_cons, List.range'_succ, List.foldlM_cons, h1]
    exact h4

end TAT
