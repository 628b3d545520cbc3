import Verif.Square.SpinProps
import Verif.Square.ErgodicProps
import Verif.Square.MarkovProps

/-!
# Sampling with the auxiliaries

C64: the functions which use the auxiliaries compute what the functions with a given amplitude compute, so that
C56 and C57 apply to the amplitude of the network.
-/

namespace TAT

set_option linter.unusedSectionVars false

variable {ν α β R : Type} [LinearOrder ν] [Field α] [LinearOrder β] [Field β] {e : NetEnv ν α β}
  {M N d : ℕ} {lattice : ℕ → ℕ → Tensor ν NoSymmetry α} {h v : ℕ → ℕ → Option ℕ}

/-- The state has the spins of the configuration. -/
def HasSpins (e : NetEnv ν α β) (lattice : ℕ → ℕ → Tensor ν NoSymmetry α) (st : SpinState M N ν α)
    (c : SpinConfig M N d) : Prop :=
  HoldsSpins e lattice st ∧ ∀ x, st.conf x = some (c x).val

/-- Two outcomes fail in the same way or their results are related. -/
def SameOutcome {A B : Type} (r : A → B → Prop) : Outcome A → Outcome B → Prop
  | .ok a, .ok b => r a b
  | .error m, .error m' => m = m'
  | .ub, .ub => True
  | _, _ => False

theorem SameOutcome.bind {A B A' B' : Type} {r : A → B → Prop} {r' : A' → B' → Prop} {x : Outcome A} {y : Outcome B}
    {f : A → Outcome A'} {g : B → Outcome B'} (hxy : SameOutcome r x y)
    (hfg : ∀ a b, r a b → SameOutcome r' (f a) (g b)) : SameOutcome r' (x.bind f) (y.bind g) := by
  cases x <;> cases y <;> first
    | exact hfg _ _ hxy
    | exact hxy
    | exact hxy.elim

theorem SameOutcome.foldlM {A B C : Type} {r : A → B → Prop} {f : A → C → Outcome A} {g : B → C → Outcome B}
    {l : List C} (hfg : ∀ a b c, c ∈ l → r a b → SameOutcome r (f a c) (g b c)) {a : A} {b : B} (hab : r a b) :
    SameOutcome r (l.foldlM f a) (l.foldlM g b) := by
  induction l generalizing a b with
  | nil => exact hab
  | cons c l ih =>
    rw [List.foldlM_cons, List.foldlM_cons]
    exact SameOutcome.bind (hfg a b c List.mem_cons_self hab) fun a' b' hab' =>
      ih (fun a b c hc => hfg a b c (List.mem_cons_of_mem _ hc)) hab'

theorem SameOutcome.eq {A : Type} {x y : Outcome A} (hxy : SameOutcome Eq x y) : x = y := by
  cases x <;> cases y <;> first
    | exact congrArg _ hxy
    | rfl
    | exact hxy.elim

theorem SameOutcome.refl {A : Type} (x : Outcome A) : SameOutcome Eq x x := by
  cases x <;> simp [SameOutcome]

theorem currentSpins_ok {st : SpinState M N ν α} {c : SpinConfig M N d} (hc : ∀ x, st.conf x = some (c x).val)
    (xs : List (LatticeSite M N)) : currentSpins st xs = .ok (spinsAt c xs) := by
  induction xs with
  | nil => rfl
  | cons x xs ih =>
    rw [currentSpins, hc]
    dsimp only
    rw [ih]
    rfl

theorem replaceSpins_ok {ss : List ℕ} {xs : List (LatticeSite M N)} (hs : ∀ s ∈ ss, s < d) (hl : xs.length ≤ ss.length)
    (c : SpinConfig M N d) : ∃ c', replaceSpins c xs ss = .ok c' := by
  induction xs generalizing c ss with
  | nil => exact ⟨c, by rw [replaceSpins]⟩
  | cons x xs ih =>
    cases ss with
    | nil => simp at hl
    | cons s ss =>
      rw [replaceSpins, dif_pos (hs s List.mem_cons_self)]
      exact ih (fun s' h' => hs s' (List.mem_cons_of_mem _ h')) (by simpa using hl) _

/-- The table has elements for the right number of spins. -/
def TableFor (d body : ℕ) (t : ElementTable α) : Prop :=
  ∀ a row, OMap.find? t a = some row → ∀ el ∈ row, Spins d body el.1

/-- The auxiliaries compute the amplitude `w`. -/
structure ComputesAmp (e : NetEnv ν α β) (cut : ℕ) (lattice : ℕ → ℕ → Tensor ν NoSymmetry α)
    (w : SpinConfig M N d → α) : Prop where
  value : ∀ (c : SpinConfig M N d) (st : SpinState M N ν α), HoldsSpins e lattice st →
    (∀ x, st.conf x = some (c x).val) → spinValue e cut st = .ok (w c)
  replace : ∀ (c c' : SpinConfig M N d) (st : SpinState M N ν α), HoldsSpins e lattice st →
    (∀ x, st.conf x = some (c x).val) → ∀ (ps : List Pos) (xs : List (LatticeSite M N)) (ss : List ℕ),
    sitesAt M N ps = .ok xs → replaceSpins c xs ss = .ok c' → ∀ (ws : α) (hint : Char),
    spinReplace e cut lattice st (assignSpins ps ss []) ws hint = replacedAmplitude w c ws c'

theorem computesAmp (he : AuxEnvOk e.toAuxEnv) (hs : SitesOn e.nm M N d lattice h v) (hM : 0 < M) (hN : 0 < N) :
    ∃ B, ∀ cut, Keeps B cut → ComputesAmp e cut lattice (sitesAmp (M := M) (N := N) (d := d) e.nm h v lattice) := by
  obtain ⟨B1, h1⟩ := C64_value he hs hM hN
  obtain ⟨B2, h2⟩ := C64_replace he hs
  exact ⟨max B1 B2, fun cut hc => ⟨h1 cut (Keeps.le hc (le_max_left _ _)), h2 cut (Keeps.le hc (le_max_right _ _))⟩⟩

variable {w : SpinConfig M N d → α} {cut : ℕ}

theorem spinElement_ok [DecidableEq α] [Add R] {ops : ScalarOps α R} (hw : ComputesAmp e cut lattice w)
    {st : SpinState M N ν α} {c : SpinConfig M N d} (hst : HasSpins e lattice st c) {ps : List Pos}
    {xs : List (LatticeSite M N)} (hx : sitesAt M N ps = .ok xs) {el : List ℕ × α} (hel : Spins d ps.length el.1)
    (ws : α) (value : R) :
    spinElement e ops cut lattice st ws ps value el = observeElement ops w c ws xs value el := by
  have hlen := sitesAt_length hx
  obtain ⟨c', hc'⟩ := replaceSpins_ok (xs := xs) hel.2 (by rw [hel.1, hlen]) c
  rw [spinElement, if_neg (by rw [hel.1]; exact lt_irrefl _), observeElement, hc', Outcome.bind,
    hw.replace c c' st hst.1 hst.2 ps xs el.1 hx hc']

theorem tableRow_cases (t : ElementTable α) (a : List ℕ) :
    (∃ row, OMap.find? t a = some row ∧ tableRow t a = .ok row) ∨ tableRow t a = .error "map::at" := by
  rw [tableRow]
  cases OMap.find? t a with
  | none => exact Or.inr rfl
  | some row => exact Or.inl ⟨row, rfl, rfl⟩

theorem spinTerm_ok [DecidableEq α] [Add R] [Zero R] {ops : ScalarOps α R} (hw : ComputesAmp e cut lattice w)
    {st : SpinState M N ν α} {c : SpinConfig M N d} (hst : HasSpins e lattice st c) {ps : List Pos}
    {xs : List (LatticeSite M N)} (hx : sitesAt M N ps = .ok xs) {t : ElementTable α} (ht : TableFor d ps.length t)
    (ws : α) : spinTerm e ops cut lattice st ws t ps = observeTerm ops w c ws t ps := by
  rw [spinTerm, observeTerm, hx, Outcome.bind, Outcome.bind, currentSpins_ok hst.2, Outcome.bind]
  rcases tableRow_cases t (spinsAt c xs) with ⟨row, h1, h2⟩ | h2
  · rw [h2, Outcome.bind, Outcome.bind]
    refine SameOutcome.eq (SameOutcome.foldlM (fun a b el hel hab => ?_) rfl)
    rw [hab, spinElement_ok hw hst hx (ht _ _ h1 el hel)]
    exact SameOutcome.refl _
  · rw [h2]
    rfl

theorem ergodicSets_ok (he : AuxEnvOk e.toAuxEnv) (hs : SitesOn e.nm M N d lattice h v) [NeZero d]
    (xs : List (LatticeSite M N)) (step : ℕ) {st : SpinState M N ν α} (hst : HoldsSpins e lattice st)
    (c : SpinConfig M N d) :
    ∃ st', setSpins e lattice st (ergodicSets d xs step) = .ok st' ∧ HoldsSpins e lattice st' ∧
      ∀ x, (x ∈ xs ∨ st.conf x = some (c x).val) → st'.conf x =
        some ((xs.foldl (fun s x => (Function.update s.1 x (Fin.ofNat d s.2), s.2 / d)) (c, step)).1 x).val := by
  induction xs generalizing step st c with
  | nil => exact ⟨st, rfl, hst, fun x hx => by simpa using hx⟩
  | cons y xs ih =>
    obtain ⟨st1, h1, h2, h3⟩ := setSpin_ok he hs hst y (some (Fin.ofNat d step))
    obtain ⟨st2, i1, i2, i3⟩ := ih (step / d) h2 (Function.update c y (Fin.ofNat d step))
    refine ⟨st2, ?_, i2, fun x hx => i3 x ?_⟩
    · show (setSpin e lattice st (sitePos y) (some (step % d))).bind _ = _
      rw [show some (step % d) = (some (Fin.ofNat d step)).map Fin.val from rfl, h1]
      exact i1
    · by_cases hy : x = y
      · subst hy
        right
        rw [h3, Function.update_self, Function.update_self]
        rfl
      · rcases hx with hx | hx
        · exact Or.inl ((List.mem_cons.1 hx).resolve_left hy)
        · right
          rw [h3, Function.update_of_ne hy, Function.update_of_ne hy, hx]

theorem positive_size {ps : List Pos} {xs : List (LatticeSite M N)} (hx : sitesAt M N ps = .ok xs) (hp : 0 < ps.length) :
    0 < M ∧ 0 < N := by
  have hlen := sitesAt_length hx
  cases xs with
  | nil => simp at hlen; omega
  | cons x xs => exact ⟨x.1.pos, x.2.pos⟩

theorem spinErgodic_ok (he : AuxEnvOk e.toAuxEnv) (hs : SitesOn e.nm M N d lattice h v) [NeZero d] [DecidableEq α]
    [Field R] [DecidableEq R] {ops : ScalarOps α R} (hw : ComputesAmp e cut lattice w) {ps : List Pos}
    {xs : List (LatticeSite M N)} (hx : sitesAt M N ps = .ok xs) {t : ElementTable α} (ht : TableFor d ps.length t)
    {st : SpinState M N ν α} (hst : HoldsSpins e lattice st) (c : SpinConfig M N d) :
    spinErgodic e ops d cut lattice t ps st = ergodic ops w t ps c := by
  rw [spinErgodic, ergodic]
  refine SameOutcome.eq (SameOutcome.bind (r := fun a b => HoldsSpins e lattice a.1 ∧ a.2 = b.2)
    (SameOutcome.foldlM (fun a b step _ hab => ?_) ⟨hst, rfl⟩) fun a b hab => by rw [hab.2]; exact SameOutcome.refl _)
  obtain ⟨st1, h1, h2, h3⟩ := ergodicSets_ok he hs (latticeSites M N) step hab.1 b.1
  have h3' : ∀ x, st1.conf x = some (ergodicSpin b.1 step x).val := fun x => h3 x (Or.inl (mem_latticeSites x))
  rw [spinErgodicStep, h1, Outcome.bind, hw.value _ _ h2 h3', Outcome.bind, spinTerm_ok hw ⟨h2, h3'⟩ hx ht,
    ergodicStep]
  refine SameOutcome.bind (SameOutcome.refl _) fun x y hxy => ?_
  subst hxy
  exact ⟨h2, by rw [hab.2]⟩

theorem markovSets_ok (he : AuxEnvOk e.toAuxEnv) (hs : SitesOn e.nm M N d lattice h v) {ps : List Pos}
    {xs : List (LatticeSite M N)} (hx : sitesAt M N ps = .ok xs) {ss : List ℕ} {c c' : SpinConfig M N d}
    (hc : replaceSpins c xs ss = .ok c') {st : SpinState M N ν α} (hst : HasSpins e lattice st c) :
    ∃ st', setSpins e lattice st ((ps.zip ss).map fun p => (p.1, some p.2)) = .ok st' ∧ HasSpins e lattice st' c' := by
  induction ps generalizing xs ss c st with
  | nil =>
    obtain rfl : [] = xs := by simpa [sitesAt] using hx
    rw [replaceSpins] at hc
    obtain rfl := Outcome.ok.inj hc
    exact ⟨st, rfl, hst⟩
  | cons p ps ih =>
    rw [sitesAt] at hx
    obtain ⟨x, h1, hx⟩ := bind_ok hx
    obtain ⟨xs', h2, hx⟩ := bind_ok hx
    obtain rfl : x :: xs' = xs := by simpa using hx
    cases ss with
    | nil => simp [replaceSpins] at hc
    | cons s ss =>
      rw [replaceSpins] at hc
      split at hc
      · next hsd =>
        obtain ⟨st1, i1, i2, i3⟩ := setSpin_ok he hs hst.1 x (some ⟨s, hsd⟩)
        obtain ⟨st2, j1, j2⟩ := ih h2 hc (st := st1) ⟨i2, fun y => by
          rw [i3]
          by_cases hy : y = x
          · subst hy
            rw [Function.update_self, Function.update_self]
            rfl
          · rw [Function.update_of_ne hy, Function.update_of_ne hy, hst.2]⟩
        refine ⟨st2, ?_, j2⟩
        rw [siteAt_ok h1]
        show (setSpin e lattice st (sitePos x) (some s)).bind _ = _
        rw [show some s = (some (⟨s, hsd⟩ : Fin d)).map Fin.val from rfl, i1]
        exact j1
      · cases hc

theorem spinMarkovTerm_ok (he : AuxEnvOk e.toAuxEnv) (hs : SitesOn e.nm M N d lattice h v) [DecidableEq α]
    [Field R] [LinearOrder R] {ops : ScalarOps α R} (hw : ComputesAmp e cut lattice w) {ps : List Pos}
    {xs : List (LatticeSite M N)} (hx : sitesAt M N ps = .ok xs) {t : ElementTable α} (ht : TableFor d ps.length t)
    (hint : Char) {s : SpinState M N ν α × α} {s' : SpinConfig M N d × α}
    (hss : HasSpins e lattice s.1 s'.1 ∧ s.2 = s'.2) (r : ℕ) (u : R) :
    SameOutcome (fun s s' => HasSpins e lattice s.1 s'.1 ∧ s.2 = s'.2)
      (spinMarkovTerm e ops cut lattice t ps hint s r u) (markovTerm ops w t ps s' r u) := by
  rw [spinMarkovTerm, markovTerm, hx, Outcome.bind, Outcome.bind, currentSpins_ok hss.1.2, Outcome.bind]
  rcases tableRow_cases t (spinsAt s'.1 xs) with ⟨row, h1, h2⟩ | h2
  · rw [h2, Outcome.bind, Outcome.bind]
    split
    · exact hss
    · cases hr : row[r]? with
      | none => trivial
      | some el =>
        have hel := ht _ _ h1 el (List.mem_of_getElem? hr)
        obtain ⟨c', hc'⟩ := replaceSpins_ok (xs := xs) hel.2 (by rw [hel.1, sitesAt_length hx]) s'.1
        dsimp only
        rw [if_neg (by rw [hel.1]; exact lt_irrefl _), hc', Outcome.bind,
          hw.replace _ _ _ hss.1.1 hss.1.2 ps xs el.1 hx hc', hss.2]
        refine SameOutcome.bind (SameOutcome.refl _) fun wss wss' hwss => ?_
        subst hwss
        refine SameOutcome.bind (SameOutcome.refl _) fun row' row'' hrow => ?_
        subst hrow
        refine SameOutcome.bind (SameOutcome.refl _) fun q q' hq => ?_
        subst hq
        split
        · obtain ⟨st, k1, k2⟩ := markovSets_ok he hs hx hc' hss.1
          rw [k1]
          exact ⟨k2, rfl⟩
        · exact hss
  · rw [h2]
    exact rfl

/-! ## C64 -/

theorem findElement_for [DecidableEq α] {body : ℕ} {value : List ℕ → α} {t : ElementTable α}
    (ht : findElement d body value = .ok t) : 0 < d ∧ 0 < body ∧ TableFor d body t := by
  by_cases h0 : body = 0 ∨ d = 0
  · rw [findElement, if_pos h0] at ht
    cases ht
  · have hd : 0 < d := by omega
    have hb : 0 < body := by omega
    obtain ⟨t', ht', htab⟩ := findElement_spec hd hb value
    obtain rfl := Outcome.ok.inj (ht.symm.trans ht')
    refine ⟨hd, hb, fun a row hr el hel => ?_⟩
    exact (((htab.2.1 a row hr).2.2 el.1 el.2).1 ((OMap.find?_iff_mem (htab.2.1 a row hr).1.nodup).2 hel)).1.2.1

theorem findHopping_for [DecidableEq α] {body : ℕ} {value : List ℕ → α} {t : ElementTable α}
    (ht : findHopping d body value = .ok t) : 0 < d ∧ 0 < body ∧ TableFor d body t := by
  by_cases h0 : body = 0 ∨ d = 0
  · rw [findHopping, if_pos h0] at ht
    cases ht
  · have hd : 0 < d := by omega
    have hb : 0 < body := by omega
    obtain ⟨t', ht', htab⟩ := findHopping_spec hd hb value
    obtain rfl := Outcome.ok.inj (ht.symm.trans ht')
    refine ⟨hd, hb, fun a row hr el hel => ?_⟩
    exact (((htab.2.1 a row hr).2.2 el.1 el.2).1 ((OMap.find?_iff_mem (htab.2.1 a row hr).1.nodup).2 hel)).1.1.2.1

/-- C64: observing with the auxiliaries computes the expectation value in the state of the network. -/
theorem C64_ergodic (he : AuxEnvOk e.toAuxEnv) (hs : SitesOn e.nm M N d lattice h v) [DecidableEq α] [Field R]
    [DecidableEq R] {ops : ScalarOps α R} {conj : α → α} (laws : ScalarLaws ops conj) {ps : List Pos}
    {xs : List (LatticeSite M N)} (hx : sitesAt M N ps = .ok xs) (hn : xs.Nodup) {value : List ℕ → α}
    {t : ElementTable α} (ht : findElement d ps.length value = .ok t) :
    ∃ B, ∀ cut, (B ≤ cut ∨ cut = 2 ^ 64 - 1) → ∀ st : SpinState M N ν α, HoldsSpins e lattice st → ∀ E,
      spinErgodic e ops d cut lattice t ps st = .ok E →
      E = (∑ c : SpinConfig M N d, ∑ c' : SpinConfig M N d,
        if ∀ x, x ∉ xs → c x = c' x then
          ops.re (conj (sitesAmp e.nm h v lattice c) *
            value ((xs.map fun x => (c x).val) ++ xs.map fun x => (c' x).val) * sitesAmp e.nm h v lattice c')
        else 0) / ∑ c : SpinConfig M N d, ops.normSq (sitesAmp e.nm h v lattice c) := by
  obtain ⟨hd, hb, htab⟩ := findElement_for ht
  haveI : NeZero d := ⟨hd.ne'⟩
  obtain ⟨hM, hN⟩ := positive_size hx hb
  obtain ⟨B, hB⟩ := computesAmp he hs hM hN
  refine ⟨B, fun cut hc st hst E hE => ?_⟩
  rw [spinErgodic_ok he hs (hB cut hc) hx htab hst fun _ => ⟨0, hd⟩] at hE
  exact C56_ergodic laws _ value ps t ht xs hx hn _ E hE

/-- C64: the Markov chain with the auxiliaries is the Markov chain of C57 for the amplitude of the network: from
states with the same spins and the same amplitude, and with the same random numbers, both fail in the same way or
both get to states with the same spins and the same amplitude. -/
theorem C64_markov (he : AuxEnvOk e.toAuxEnv) (hs : SitesOn e.nm M N d lattice h v) [DecidableEq α] [Field R]
    [LinearOrder R] {ops : ScalarOps α R} (hM : 0 < M) (hN : 0 < N)
    {terms : List ((ElementTable α × List Pos) × Char)}
    (ht : ∀ t ∈ terms, (∃ value, findHopping d t.1.2.length value = .ok t.1.1) ∧ ∃ xs, sitesAt M N t.1.2 = .ok xs) :
    ∃ B, ∀ cut, (B ≤ cut ∨ cut = 2 ^ 64 - 1) → ∀ (st : SpinState M N ν α) (c : SpinConfig M N d) (ws : α),
      HasSpins e lattice st c → ∀ random : ℕ → ℕ × R,
      SameOutcome (fun s s' => HasSpins e lattice s.1 s'.1 ∧ s.2 = s'.2)
        (spinMarkovSweep e ops cut lattice terms (st, ws) random)
        (markovSweep ops (sitesAmp e.nm h v lattice) (terms.map Prod.fst) (c, ws) random) := by
  obtain ⟨B, hB⟩ := computesAmp he hs hM hN
  refine ⟨B, fun cut hc st c ws hst random => ?_⟩
  rw [spinMarkovSweep, markovSweep, ← List.map_reverse, ← List.map_append]
  have hl : ∀ t ∈ terms ++ terms.reverse, (∃ value, findHopping d t.1.2.length value = .ok t.1.1) ∧
      ∃ xs, sitesAt M N t.1.2 = .ok xs := fun t h => ht t (by simpa using h)
  rw [List.zipIdx_map, List.foldlM_map]
  refine SameOutcome.foldlM (fun a b t hmem hab => ?_) ⟨hst, rfl⟩
  obtain ⟨⟨value, h1⟩, xs, h2⟩ := hl t.1 ((List.mem_zipIdx' hmem).2 ▸ List.getElem_mem _)
  exact spinMarkovTerm_ok he hs (hB cut hc) h2 (findHopping_for h1).2.2 t.1.2 hab _ _

end TAT
