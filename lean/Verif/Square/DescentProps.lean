import Verif.Square.DescentModel
import Verif.Square.SpinRun
import Verif.Square.GradRun

/-!
# C81: which lattice is sampled after its tensors have been changed

The tensors of a sampling lattice can be changed, as gradient descent does.  The auxiliaries keep the slices which they
have until a spin changes, so that they compute the amplitude of a lattice whose tensors are of different times.
-/

namespace TAT

set_option linter.unusedSectionVars false

variable {ν α β R : Type} [LinearOrder ν] [Field α] [LinearOrder β] [Field β] {e : NetEnv ν α β}
  {M N d : ℕ} {h v : ℕ → ℕ → Option ℕ}

/-! ## Histories -/

/-- What can happen to a lattice: a spin is set, or the tensors are changed. -/
inductive LatticeEvent (M N d : ℕ) (ν α : Type) where
  | set (x : LatticeSite M N) (k : Option (Fin d))
  | change (lattice : ℕ → ℕ → Tensor ν NoSymmetry α)

/-- The same in terms of positions and numbers. -/
def codeEvent : LatticeEvent M N d ν α → (Pos × Option ℕ) ⊕ (ℕ → ℕ → Tensor ν NoSymmetry α)
  | .set x k => .inl (sitePos x, k.map Fin.val)
  | .change lattice => .inr lattice

/-- The lattice after a history. -/
def inForce (start : ℕ → ℕ → Tensor ν NoSymmetry α) :
    List (LatticeEvent M N d ν α) → ℕ → ℕ → Tensor ν NoSymmetry α
  | [] => start
  | .set _ _ :: l => inForce start l
  | .change lattice :: l => inForce lattice l

/-- The spin of a site after a history. -/
def spinOf (x : LatticeSite M N) (start : Option (Fin d)) : List (LatticeEvent M N d ν α) → Option (Fin d)
  | [] => start
  | .set y k :: l => spinOf x (if y = x then k else start) l
  | .change _ :: l => spinOf x start l

/-- The tensor is that of the site `x` at the time when the spin of `x` changed last. -/
def TakenFrom (start : ℕ → ℕ → Tensor ν NoSymmetry α) (hist : List (LatticeEvent M N d ν α)) (x : LatticeSite M N)
    (t : Tensor ν NoSymmetry α) : Prop :=
  ∃ before k after, hist = before ++ .set x (some k) :: after ∧ spinOf x none before ≠ some k ∧
    (∀ k', .set x k' ∈ after → k' = some k) ∧ t = inForce start before x.1 x.2

/-- All lattices of the history have the same edges. -/
def EdgesKept (nm : String → ν) (h v : ℕ → ℕ → Option ℕ) (start : ℕ → ℕ → Tensor ν NoSymmetry α)
    (hist : List (LatticeEvent M N d ν α)) : Prop :=
  SitesOn nm M N d start h v ∧ ∀ l, .change l ∈ hist → SitesOn nm M N d l h v

theorem inForce_append (start : ℕ → ℕ → Tensor ν NoSymmetry α) (l l' : List (LatticeEvent M N d ν α)) :
    inForce start (l ++ l') = inForce (inForce start l) l' := by
  induction l generalizing start with
  | nil => rfl
  | cons a l ih => cases a <;> exact ih _

theorem spinOf_append (x : LatticeSite M N) (start : Option (Fin d)) (l l' : List (LatticeEvent M N d ν α)) :
    spinOf x start (l ++ l') = spinOf x (spinOf x start l) l' := by
  induction l generalizing start with
  | nil => rfl
  | cons a l ih => cases a <;> exact ih _

theorem inForce_on {nm : String → ν} {start : ℕ → ℕ → Tensor ν NoSymmetry α} {l : List (LatticeEvent M N d ν α)}
    (hl : EdgesKept nm h v start l) : SitesOn nm M N d (inForce start l) h v := by
  induction l generalizing start with
  | nil => exact hl.1
  | cons a l ih =>
    cases a with
    | set x k => exact ih ⟨hl.1, fun l' h' => hl.2 l' (List.mem_cons_of_mem _ h')⟩
    | change l0 => exact ih ⟨hl.2 l0 List.mem_cons_self, fun l' h' => hl.2 l' (List.mem_cons_of_mem _ h')⟩

theorem EdgesKept.left {nm : String → ν} {start : ℕ → ℕ → Tensor ν NoSymmetry α} {l l' : List (LatticeEvent M N d ν α)}
    (hl : EdgesKept nm h v start (l ++ l')) : EdgesKept nm h v start l :=
  ⟨hl.1, fun l0 h0 => hl.2 l0 (List.mem_append_left _ h0)⟩

/-- If a site has a spin and all later calls give it the same spin, it keeps it. -/
theorem spinOf_same {x : LatticeSite M N} {k : Fin d} {l : List (LatticeEvent M N d ν α)}
    (hl : ∀ k', .set x k' ∈ l → k' = some k) : spinOf x (some k) l = some k := by
  induction l with
  | nil => rfl
  | cons a l ih =>
    have ih := ih fun k' hk' => hl k' (List.mem_cons_of_mem _ hk')
    cases a with
    | change l0 => exact ih
    | set y k' =>
      rw [spinOf]
      split
      · next hy =>
        subst hy
        rw [hl k' List.mem_cons_self]
        exact ih
      · exact ih

theorem TakenFrom.spin {start : ℕ → ℕ → Tensor ν NoSymmetry α} {hist : List (LatticeEvent M N d ν α)}
    {x : LatticeSite M N} {t : Tensor ν NoSymmetry α} (ht : TakenFrom start hist x t) :
    ∃ k, spinOf x none hist = some k := by
  obtain ⟨before, k, after, rfl, -, h2, -⟩ := ht
  refine ⟨k, ?_⟩
  rw [spinOf_append, spinOf, if_pos rfl]
  exact spinOf_same h2

theorem TakenFrom.fits {nm : String → ν} {start : ℕ → ℕ → Tensor ν NoSymmetry α}
    {hist : List (LatticeEvent M N d ν α)} (hl : EdgesKept nm h v start hist) {x : LatticeSite M N}
    {t : Tensor ν NoSymmetry α} (ht : TakenFrom start hist x t) :
    SiteEdges nm t (h x.1 x.2) (h x.1 (x.2 + 1)) (v x.1 x.2) (v (x.1 + 1) x.2) d := by
  obtain ⟨before, k, after, rfl, -, -, rfl⟩ := ht
  exact (inForce_on hl.left).fits x.1 x.1.2 x.2 x.2.2

/-- C81: the tensor is determined by the history. -/
theorem C81_unique {start : ℕ → ℕ → Tensor ν NoSymmetry α} {hist : List (LatticeEvent M N d ν α)}
    {x : LatticeSite M N} {t t' : Tensor ν NoSymmetry α} (ht : TakenFrom start hist x t)
    (ht' : TakenFrom start hist x t') : t = t' := by
  obtain ⟨b, k, a, rfl, h1, h2, rfl⟩ := ht
  obtain ⟨b', k', a', h0, h1', h2', rfl⟩ := ht'
  have key : ∀ {b b' a a' : List (LatticeEvent M N d ν α)} {k k' : Fin d},
      (∀ q, .set x q ∈ a → q = some k) → spinOf x none b' ≠ some k' →
      ∀ c, b' = b ++ c → .set x (some k) :: a = c ++ .set x (some k') :: a' → b = b' := by
    intro b b' a a' k k' h2 h1' c hb hc
    cases c with
    | nil => rw [hb, List.append_nil]
    | cons p c =>
      rw [List.cons_append, List.cons.injEq] at hc
      obtain ⟨rfl, rfl⟩ := hc
      have hk := h2 (some k') (by simp)
      refine absurd ?_ h1'
      rw [hb, spinOf_append, spinOf, if_pos rfl, hk]
      exact spinOf_same fun q hq => h2 q (by simp [hq])
  rcases List.append_eq_append_iff.1 h0 with ⟨c, hb, hc⟩ | ⟨c, hb, hc⟩
  · rw [key h2 h1' c hb hc]
  · rw [key h2' h1 c hb hc]

theorem TakenFrom.snoc {start : ℕ → ℕ → Tensor ν NoSymmetry α} {hist : List (LatticeEvent M N d ν α)}
    {x : LatticeSite M N} {t : Tensor ν NoSymmetry α} (ht : TakenFrom start hist x t) {a : LatticeEvent M N d ν α}
    (ha : ∀ k', a = .set x k' → k' = spinOf x none hist) : TakenFrom start (hist ++ [a]) x t := by
  obtain ⟨b, k, c, rfl, h1, h2, rfl⟩ := ht
  refine ⟨b, k, c ++ [a], by simp, h1, fun k' hk' => ?_, rfl⟩
  rcases List.mem_append.1 hk' with hk' | hk'
  · exact h2 k' hk'
  · rw [ha k' (List.mem_singleton.1 hk').symm, spinOf_append, spinOf, if_pos rfl]
    exact spinOf_same h2

/-! ## What the auxiliaries have -/

/-- C81: after any history the spins are those set last, and the slice of each site is that of the tensor which the site
had when its spin changed last, whatever the lattice is now. -/
theorem C81_taken (he : AuxEnvOk e.toAuxEnv) {start : ℕ → ℕ → Tensor ν NoSymmetry α}
    (hist : List (LatticeEvent M N d ν α)) (hl : EdgesKept e.nm h v start hist) :
    ∃ st : SpinState M N ν α, spinEvents e (start, .empty) (hist.map codeEvent) = .ok (inForce start hist, st) ∧
      (∀ x, st.conf x = (spinOf x none hist).map Fin.val) ∧ (∀ x, spinOf x none hist = none → st.site x = none) ∧
      ∀ x k, spinOf x none hist = some k → ∃ t r, TakenFrom start hist x t ∧ siteAtSpin e t k = .ok r ∧
        st.site x = some r := by
  induction hist using List.reverseRecOn with
  | nil => exact ⟨.empty, rfl, fun _ => rfl, fun _ _ => rfl, fun x k hk => by cases hk⟩
  | append_singleton hist a ih =>
    obtain ⟨st, h1, h2, h3, h4⟩ := ih hl.left
    rw [spinEvents] at h1
    have hrun : spinEvents e (start, (.empty : SpinState M N ν α)) ((hist ++ [a]).map codeEvent) =
        spinEvent e (inForce start hist, st) (codeEvent a) := by
      rw [spinEvents, List.map_append, List.foldlM_append, h1]
      show (spinEvent e _ _).bind _ = _
      cases spinEvent e (inForce start hist, st) (codeEvent a) <;> rfl
    rw [hrun]
    cases a with
    | change l0 =>
      refine ⟨st, ?_, fun x => ?_, fun x hx => ?_, fun x k hk => ?_⟩
      · rw [inForce_append]
        rfl
      · rw [spinOf_append]
        exact h2 x
      · rw [spinOf_append] at hx
        exact h3 x hx
      · rw [spinOf_append] at hk
        obtain ⟨t, r, i1, i2, i3⟩ := h4 x k hk
        exact ⟨t, r, i1.snoc fun k' hk' => by simp at hk', i2, i3⟩
    | set x k =>
      rw [inForce_append]
      have hspin : ∀ y, spinOf y none (hist ++ [.set x k]) = if x = y then k else spinOf y none hist := fun y => by
        rw [spinOf_append]
        rfl
      show ∃ st', (setSpin e (inForce start hist) st (sitePos x) (k.map Fin.val)).bind _ = _ ∧ _
      rw [setSpin, siteAt_pos, Outcome.bind]
      by_cases hc : st.conf x = k.map Fin.val
      · have hk : spinOf x none hist = k := by
          rw [h2] at hc
          exact Option.map_injective Fin.val_injective hc
        have hspin' : ∀ y, spinOf y none (hist ++ [.set x k]) = spinOf y none hist := fun y => by
          rw [hspin]
          split
          · next hxy => rw [← hxy, hk]
          · rfl
        rw [if_pos hc]
        refine ⟨st, rfl, fun y => by rw [hspin', h2], fun y hy => h3 y (by rwa [hspin'] at hy), fun y k' hk' => ?_⟩
        rw [hspin'] at hk'
        obtain ⟨t, r, i1, i2, i3⟩ := h4 y k' hk'
        refine ⟨t, r, i1.snoc fun k'' hk'' => ?_, i2, i3⟩
        injection hk'' with ha hb
        rw [← hb, ← ha, hk]
      · rw [if_neg hc]
        cases k with
        | none =>
          refine ⟨_, rfl, fun y => ?_, fun y hy => ?_, fun y k' hk' => ?_⟩
          · rw [hspin]
            by_cases hxy : x = y
            · subst hxy
              rw [if_pos rfl]
              exact Function.update_self ..
            · rw [if_neg hxy]
              exact (Function.update_of_ne (Ne.symm hxy) ..).trans (h2 y)
          · rw [hspin] at hy
            by_cases hxy : x = y
            · subst hxy
              exact Function.update_self ..
            · rw [if_neg hxy] at hy
              exact (Function.update_of_ne (Ne.symm hxy) ..).trans (h3 y hy)
          · rw [hspin] at hk'
            by_cases hxy : x = y
            · rw [if_pos hxy] at hk'
              cases hk'
            · rw [if_neg hxy] at hk'
              obtain ⟨t, r, i1, i2, i3⟩ := h4 y k' hk'
              refine ⟨t, r, i1.snoc fun k'' hk'' => ?_, i2, (Function.update_of_ne (Ne.symm hxy) ..).trans i3⟩
              injection hk'' with ha hb
              exact absurd ha hxy
        | some k =>
          obtain ⟨r, hr, -⟩ := siteAtSpin_ok he ((inForce_on hl.left).fits x.1 x.1.2 x.2 x.2.2) k.2
          refine ⟨⟨Function.update st.conf x (some k.val), Function.update st.site x (some r)⟩, ?_, fun y => ?_,
            fun y hy => ?_, fun y k' hk' => ?_⟩
          · show ((siteAtSpin e (inForce start hist x.1 x.2) k.val).bind _).bind _ = _
            rw [hr]
            rfl
          · rw [hspin]
            by_cases hxy : x = y
            · subst hxy
              rw [if_pos rfl]
              exact Function.update_self ..
            · rw [if_neg hxy]
              exact (Function.update_of_ne (Ne.symm hxy) ..).trans (h2 y)
          · rw [hspin] at hy
            by_cases hxy : x = y
            · rw [if_pos hxy] at hy
              cases hy
            · rw [if_neg hxy] at hy
              exact (Function.update_of_ne (Ne.symm hxy) ..).trans (h3 y hy)
          · rw [hspin] at hk'
            by_cases hxy : x = y
            · subst hxy
              rw [if_pos rfl] at hk'
              obtain rfl := Option.some.inj hk'
              refine ⟨_, r, ⟨hist, k, [], rfl, fun h0 => hc ?_, fun _ h => (List.not_mem_nil h).elim, rfl⟩, hr,
                Function.update_self ..⟩
              rw [h2, h0]
            · rw [if_neg hxy] at hk'
              obtain ⟨t, r', i1, i2, i3⟩ := h4 y k' hk'
              refine ⟨t, r', i1.snoc fun k'' hk'' => ?_, i2, (Function.update_of_ne (Ne.symm hxy) ..).trans i3⟩
              injection hk'' with ha hb
              exact absurd ha hxy

/-- The lattice of the tensors which have been taken. -/
theorem taken_holds (he : AuxEnvOk e.toAuxEnv) {start : ℕ → ℕ → Tensor ν NoSymmetry α}
    {hist : List (LatticeEvent M N d ν α)} (hl : EdgesKept e.nm h v start hist)
    {taken : ℕ → ℕ → Tensor ν NoSymmetry α} (ht : ∀ x : LatticeSite M N, TakenFrom start hist x (taken x.1 x.2)) :
    SitesOn e.nm M N d taken h v ∧ ∃ (st : SpinState M N ν α) (c : SpinConfig M N d),
      spinEvents e (start, .empty) (hist.map codeEvent) = .ok (inForce start hist, st) ∧
      (∀ x, spinOf x none hist = some (c x)) ∧ HasSpins e taken st c := by
  obtain ⟨st, h1, h2, -, h4⟩ := C81_taken he hist hl
  choose c hc using fun x => (ht x).spin
  refine ⟨⟨fun i hi j hj => (ht (⟨i, hi⟩, ⟨j, hj⟩)).fits hl, hl.1.left, hl.1.right, hl.1.top, hl.1.bottom⟩, st, c, h1, hc,
    ⟨fun x hx => ?_, fun x k hx => ?_⟩, fun x => by rw [h2, hc]; rfl⟩
  · rw [h2, hc] at hx
    cases hx
  · rw [h2, hc] at hx
    obtain rfl := Option.some.inj hx
    obtain ⟨t, r, i1, i2, i3⟩ := h4 x _ (hc x)
    rw [C81_unique i1 (ht x)] at i2
    exact ⟨r, i2, i3⟩

/-! ## Values -/

/-- C81: after any history which has set all spins, and if nothing is cut, the value is the amplitude of the lattice made
of the tensors which the sites had when their spins changed last. -/
theorem C81_value (he : AuxEnvOk e.toAuxEnv) (hM : 0 < M) (hN : 0 < N) {taken : ℕ → ℕ → Tensor ν NoSymmetry α}
    {start : ℕ → ℕ → Tensor ν NoSymmetry α} {hist : List (LatticeEvent M N d ν α)}
    (hl : EdgesKept e.nm h v start hist) (ht : ∀ x : LatticeSite M N, TakenFrom start hist x (taken x.1 x.2)) :
    ∃ (st : SpinState M N ν α) (c : SpinConfig M N d),
      spinEvents e (start, .empty) (hist.map codeEvent) = .ok (inForce start hist, st) ∧
      (∀ x, spinOf x none hist = some (c x)) ∧
      ∃ B, ∀ cut, (B ≤ cut ∨ cut = 2 ^ 64 - 1) → spinValue e cut st = .ok (sitesAmp e.nm h v taken c) := by
  obtain ⟨hs, st, c, h1, h2, h3⟩ := taken_holds he hl ht
  obtain ⟨B, hB⟩ := C64_value he hs hM hN
  exact ⟨st, c, h1, h2, B, fun cut hc => hB cut hc c st h3.1 h3.2⟩

/-- C81, for histories where every spin has changed since the lattice was changed last: the auxiliaries have the slices
of the lattice as it is now, so that C64 and what follows from it hold for this lattice. -/
theorem C81_fresh_partial (he : AuxEnvOk e.toAuxEnv) {start : ℕ → ℕ → Tensor ν NoSymmetry α}
    {hist : List (LatticeEvent M N d ν α)} (hl : EdgesKept e.nm h v start hist)
    (ht : ∀ x : LatticeSite M N, TakenFrom start hist x (inForce start hist x.1 x.2)) :
    ∃ (st : SpinState M N ν α) (c : SpinConfig M N d),
      spinEvents e (start, .empty) (hist.map codeEvent) = .ok (inForce start hist, st) ∧
      (∀ x, spinOf x none hist = some (c x)) ∧ HasSpins e (inForce start hist) st c :=
  (taken_holds he hl ht).2

theorem setSpins_same {lattice : ℕ → ℕ → Tensor ν NoSymmetry α} {st : SpinState M N ν α}
    (l : List (LatticeSite M N)) :
    setSpins e lattice st (l.map fun x => ((((x.1 : ℕ) : ℤ), ((x.2 : ℕ) : ℤ)), st.conf x)) = .ok st := by
  induction l with
  | nil => rfl
  | cons x l ih =>
    rw [setSpins, List.map_cons, List.foldlM_cons]
    show (setSpin e lattice st (sitePos x) (st.conf x)).bind _ = _
    rw [setSpin, siteAt_pos, Outcome.bind, if_pos rfl]
    exact ih

/-- C81: giving the sites the spins which they have changes nothing, whatever the lattice is now. -/
theorem C81_initialize (e : NetEnv ν α β) (lattice : ℕ → ℕ → Tensor ν NoSymmetry α) (st : SpinState M N ν α) :
    initializeSites e lattice st st.conf = .ok st :=
  setSpins_same _

theorem initializeSites_ok (he : AuxEnvOk e.toAuxEnv) {lattice : ℕ → ℕ → Tensor ν NoSymmetry α}
    (hs : SitesOn e.nm M N d lattice h v) {st : SpinState M N ν α} (hst : HoldsSpins e lattice st)
    (c : LatticeSite M N → Option (Fin d)) :
    ∃ st', initializeSites e lattice st (fun x => (c x).map Fin.val) = .ok st' ∧ HoldsSpins e lattice st' ∧
      ∀ x, st'.conf x = (c x).map Fin.val := by
  obtain ⟨st', h1, h2, h3⟩ := setSpins_ok he hs ((latticeSites M N).map fun x => (x, c x)) hst
  refine ⟨st', ?_, h2, fun x => ?_⟩
  · rw [← h1, initializeSites, codeSets, List.map_map]
    rfl
  · rw [h3]
    cases hf : List.find? (fun p : LatticeSite M N × Option (Fin d) => decide (p.1 = x))
        ((latticeSites M N).map fun x => (x, c x)).reverse with
    | none =>
      rw [List.find?_eq_none] at hf
      exact (hf (x, c x) (by simp [mem_latticeSites]) (decide_eq_true rfl)).elim
    | some p =>
      have h4 := List.mem_of_find?_eq_some hf
      have h5 := List.find?_some hf
      simp only [decide_eq_true_eq] at h5
      simp only [List.mem_reverse, List.mem_map] at h4
      obtain ⟨y, -, rfl⟩ := h4
      dsimp only at h5 ⊢
      rw [h5]

/-- C81: with `set_dimension_cut`, or by copying the lattice, the auxiliaries get the slices of the lattice as it is now
and keep the spins, whatever has happened before. -/
theorem C81_renew (he : AuxEnvOk e.toAuxEnv) {start : ℕ → ℕ → Tensor ν NoSymmetry α}
    (hist : List (LatticeEvent M N d ν α)) (hl : EdgesKept e.nm h v start hist) :
    ∃ st st' : SpinState M N ν α,
      spinEvents e (start, .empty) (hist.map codeEvent) = .ok (inForce start hist, st) ∧
      renewSpin e (inForce start hist) st = .ok st' ∧ HoldsSpins e (inForce start hist) st' ∧
      ∀ x, st'.conf x = (spinOf x none hist).map Fin.val := by
  obtain ⟨st, h1, h2, -, -⟩ := C81_taken he hist hl
  obtain ⟨st', i1, i2, i3⟩ := initializeSites_ok he (inForce_on hl) (st := .empty)
    ⟨fun _ _ => rfl, fun _ _ h => by cases h⟩ fun x => spinOf x none hist
  refine ⟨st, st', h1, ?_, i2, i3⟩
  rw [← i1, renewSpin]
  congr 1
  funext x
  exact h2 x

/-- Slices with the edges of the lattice, of whatever origin. -/
theorem slicesAt_replace (he : AuxEnvOk e.toAuxEnv) {lattice : ℕ → ℕ → Tensor ν NoSymmetry α}
    (hs : SitesOn e.nm M N d lattice h v) {T : LatticeSite M N → Fin d → Tensor ν NoSymmetry α}
    (hT : ∀ x (k : Fin d), HasEdges e.nm "" (T x k) (h x.1 x.2) (h x.1 (x.2 + 1)) (v x.1 x.2) (v (x.1 + 1) x.2)) :
    ∃ B, ∀ cut, Keeps B cut → ∀ (c : SpinConfig M N d) (hint : Char),
      (∀ x k, auxReplace e.toAuxEnv ⟨M, N, cut, slicesAt T c⟩ [(sitePos x, T x k)] hint =
        .ok (latticeValue e.nm M N h v (slicesAt T (Function.update c x k)))) ∧
      ∀ (x y : LatticeSite M N) (k k' : Fin d),
        (x.1 = y.1 ∧ x.2.val + 1 = y.2.val ∨ x.2 = y.2 ∧ x.1.val + 1 = y.1.val) →
        auxReplace e.toAuxEnv ⟨M, N, cut, slicesAt T c⟩ [(sitePos x, T x k), (sitePos y, T y k')] hint =
          .ok (latticeValue e.nm M N h v (slicesAt T (Function.update (Function.update c x k) y k'))) := by
  have hon : ∀ c : SpinConfig M N d, LatticeOn e.nm M N (slicesAt T c) h v := fun c =>
    ⟨fun i hi j hj => by
      rw [slicesAt, dif_pos ⟨hi, hj⟩]
      exact hT _ _, hs.left, hs.right, hs.top, hs.bottom⟩
  have h1 : ∀ q : SpinConfig M N d × LatticeSite M N × Fin d, ∃ B, ∀ cut, Keeps B cut → ∀ hint : Char,
      auxReplace e.toAuxEnv ⟨M, N, cut, slicesAt T q.1⟩ [(sitePos q.2.1, T q.2.1 q.2.2)] hint =
        .ok (latticeValue e.nm M N h v (slicesAt T (Function.update q.1 q.2.1 q.2.2))) := by
    rintro ⟨c, x, k⟩
    obtain ⟨B, hB⟩ := C62_one he (hon c) x.1.2 x.2.2 (hT x k)
    refine ⟨B, fun cut hc hint => ?_⟩
    rw [← slicesAt_update]
    exact hB cut hc hint
  have h2 : ∀ q : SpinConfig M N d × (LatticeSite M N × Fin d) × LatticeSite M N × Fin d, ∃ B, ∀ cut, Keeps B cut →
      ∀ hint : Char, (q.2.1.1.1 = q.2.2.1.1 ∧ q.2.1.1.2.val + 1 = q.2.2.1.2.val ∨
          q.2.1.1.2 = q.2.2.1.2 ∧ q.2.1.1.1.val + 1 = q.2.2.1.1.val) →
        auxReplace e.toAuxEnv ⟨M, N, cut, slicesAt T q.1⟩
            [(sitePos q.2.1.1, T q.2.1.1 q.2.1.2), (sitePos q.2.2.1, T q.2.2.1 q.2.2.2)] hint =
          .ok (latticeValue e.nm M N h v
            (slicesAt T (Function.update (Function.update q.1 q.2.1.1 q.2.1.2) q.2.2.1 q.2.2.2))) := by
    rintro ⟨c, ⟨x, k⟩, y, k'⟩
    by_cases hr : x.1 = y.1 ∧ x.2.val + 1 = y.2.val
    · have hy := hT y k'
      rw [← hr.1, ← hr.2] at hy
      obtain ⟨B, hB⟩ := C62_two_row he (hon c) x.1.2 (hr.2 ▸ y.2.2) (hT x k) hy
      refine ⟨B, fun cut hc hint _ => ?_⟩
      rw [← slicesAt_update, ← slicesAt_update]
      have := hB cut hc hint
      rw [hr.2, hr.1] at this
      convert this using 3 <;> simp [sitePos, hr.1]
    · by_cases hb : x.2 = y.2 ∧ x.1.val + 1 = y.1.val
      · have hy := hT y k'
        rw [← hb.1, ← hb.2] at hy
        obtain ⟨B, hB⟩ := C62_two_column he (hon c) (hb.2 ▸ y.1.2) x.2.2 (hT x k) hy
        refine ⟨B, fun cut hc hint _ => ?_⟩
        rw [← slicesAt_update, ← slicesAt_update]
        have := hB cut hc hint
        rw [hb.2, hb.1] at this
        convert this using 3 <;> simp [sitePos, hb.1]
      · exact ⟨0, fun _ _ _ h => (h.elim hr hb).elim⟩
  obtain ⟨B1, hB1⟩ := Keeps.uniform h1
  obtain ⟨B2, hB2⟩ := Keeps.uniform h2
  exact ⟨max B1 B2, fun cut hc c hint =>
    ⟨fun x k => hB1 cut (Keeps.le hc (le_max_left _ _)) (c, x, k) hint,
      fun x y k k' hxy => hB2 cut (Keeps.le hc (le_max_right _ _)) (c, (x, k), y, k') hint hxy⟩⟩

/-- The lattice with the tensors of `now` where the configurations differ and those of `taken` elsewhere. -/
def mixedLattice (taken now : ℕ → ℕ → Tensor ν NoSymmetry α) (c c' : SpinConfig M N d) (i j : ℕ) :
    Tensor ν NoSymmetry α :=
  if spinAt c i j = spinAt c' i j then taken i j else now i j

/-- C81: if nothing is cut, the value with some spins replaced is the amplitude of a lattice which has the tensors of now
at the sites which change and those taken before at the other sites. -/
theorem C81_replace (he : AuxEnvOk e.toAuxEnv) {taken now : ℕ → ℕ → Tensor ν NoSymmetry α}
    (ht : SitesOn e.nm M N d taken h v) (hn : SitesOn e.nm M N d now h v) :
    ∃ B, ∀ cut, (B ≤ cut ∨ cut = 2 ^ 64 - 1) → ∀ (c c' : SpinConfig M N d) (st : SpinState M N ν α),
      HasSpins e taken st c →
      ∀ (ps : List Pos) (xs : List (LatticeSite M N)) (ss : List ℕ), sitesAt M N ps = .ok xs →
        replaceSpins c xs ss = .ok c' → ∀ (ws : α) (hint : Char),
        spinReplace e cut now st (assignSpins ps ss []) ws hint =
          replacedAmplitude (fun c' => sitesAmp e.nm h v (mixedLattice taken now c c') c') c ws c' := by
  obtain ⟨T1, hT1⟩ := exists_slices he ht
  obtain ⟨T2, hT2⟩ := exists_slices he hn
  let T : SpinConfig M N d → LatticeSite M N → Fin d → Tensor ν NoSymmetry α := fun c x k =>
    if k = c x then T1 x k else T2 x k
  have hT : ∀ c x k, HasEdges e.nm "" (T c x k) (h x.1 x.2) (h x.1 (x.2 + 1)) (v x.1 x.2) (v (x.1 + 1) x.2) := by
    intro c x k
    dsimp only [T]
    split
    · exact (hT1 x k).2.1
    · exact (hT2 x k).2.1
  have hval : ∀ c c', latticeValue e.nm M N h v (slicesAt (T c) c') =
      sitesAmp e.nm h v (mixedLattice taken now c c') c' := by
    intro c c'
    refine netVal_congr fun i hi j hj => ?_
    funext l r u b
    have hs : ∀ c : SpinConfig M N d, spinAt c i j = (c (⟨i, hi⟩, ⟨j, hj⟩)).val := fun c => by
      rw [spinAt, dif_pos ⟨hi, hj⟩]
    rw [slicesAt, dif_pos ⟨hi, hj⟩, mixedLattice, hs, hs]
    dsimp only [T]
    by_cases hc : c' (⟨i, hi⟩, ⟨j, hj⟩) = c (⟨i, hi⟩, ⟨j, hj⟩)
    · rw [if_pos hc, if_pos (by rw [hc]), (hT1 _ _).2.2]
    · rw [if_neg hc, if_neg (fun h0 => hc (Fin.ext h0.symm)), (hT2 _ _).2.2]
  obtain ⟨B, hB⟩ := Keeps.uniform fun c => slicesAt_replace he ht (hT c)
  refine ⟨B, fun cut hc c c' st hst ps xs ss hps hss ws hint => ?_⟩
  obtain ⟨rep, r1, r2, r3⟩ := assignSpins_ok (rep := []) hps c List.Pairwise.nil hss
  have hten : st.tensors = .ok (slicesAt (T c) c) := by
    rw [tensors_ok (fun x k => (hT1 x k).1) hst.1 hst.2]
    congr 1
    funext i j
    rw [slicesAt, slicesAt]
    split
    · exact (if_pos rfl).symm
    · rfl
  have hreal : (changes c rep).map (fun p => (sitePos p.1, T2 p.1 p.2)) =
      (changes c rep).map fun p => (sitePos p.1, T c p.1 p.2) := by
    refine List.map_congr_left fun p hp => ?_
    have hp := (List.mem_filter.1 hp).2
    simp only [decide_eq_true_eq] at hp
    dsimp only [T]
    rw [if_neg (Ne.symm hp)]
  rw [show assignSpins ps ss [] = codeReplacement rep from r1, spinReplace,
    realReplacement_ok (fun x k => (hT2 x k).1) hst.2, Outcome.bind, hreal, replacedAmplitude, ← r3, changed_sites r2,
    overwrite_changes r2, ← hval]
  obtain ⟨b1, b2⟩ := hB cut hc c c hint
  have hsort : (changes c rep).Pairwise fun a b => siteBefore a.1 b.1 := r2.filter _
  generalize changes c rep = F at hsort ⊢
  match F, hsort with
  | [], _ => rfl
  | [(x, k)], _ =>
    rw [if_neg (by simp), hten, Outcome.bind, List.map_singleton, b1]
    show _ = Outcome.ok _
    congr 3
    funext y
    by_cases hy : y = x
    · subst hy
      simp [overwrite]
    · rw [Function.update_of_ne hy]
      simp [overwrite, Ne.symm hy]
  | [(x, k), (y, k')], hsort =>
    have hxy : siteBefore x y := (List.pairwise_cons.1 hsort).1 (y, k') (List.mem_singleton.2 rfl)
    rw [if_neg (by simp), hten, Outcome.bind]
    simp only [List.map_cons, List.map_nil]
    by_cases hr : x.1 = y.1 ∧ x.2.val + 1 = y.2.val ∨ x.2 = y.2 ∧ x.1.val + 1 = y.1.val
    · rw [b2 x y k k' hr, if_pos (by simpa [replaceable] using hr)]
      congr 3
      funext z
      by_cases hz : z = y
      · subst hz
        simp [overwrite, siteBefore_ne hxy]
      · rw [Function.update_of_ne hz]
        by_cases hz' : z = x
        · subst hz'
          simp [overwrite]
        · rw [Function.update_of_ne hz']
          simp [overwrite, Ne.symm hz, Ne.symm hz']
    · rw [if_neg (by simpa [replaceable] using hr)]
      refine (C62_unsupported e.toAuxEnv _ hint).2.2 _ _ _ _ ?_ ?_
      · intro hp
        refine hr (Or.inl ⟨?_, ?_⟩)
        · have := congrArg Prod.fst hp
          simp only [sitePos, Nat.cast_inj] at this
          exact Fin.ext this.symm
        · have := congrArg Prod.snd hp
          simp only [sitePos] at this
          omega
      · intro hp
        refine hr (Or.inr ⟨?_, ?_⟩)
        · have := congrArg Prod.snd hp
          simp only [sitePos, Nat.cast_inj] at this
          exact Fin.ext this.symm
        · have := congrArg Prod.fst hp
          simp only [sitePos] at this
          omega
  | p :: q :: r :: F, _ =>
    rw [if_neg (by simp), hten, Outcome.bind]
    exact (C62_unsupported e.toAuxEnv _ hint).2.1 _ (by simp)

/-! ## The step of the descent -/

/-- One site: the difference is divided by its largest modulus. -/
theorem descendSite_ok (he : NetEnvOk e) (env : Env NoSymmetry α) {t g : Tensor ν NoSymmetry α} (hd : Dense t)
    (hg : Dense g) (hl : ∀ n, leg g n = leg t n) (step : α) :
    ((∀ i, val t i - step * val g i = 0) → descendSite e env step t g = .error "division by zero") ∧
    ((∃ i, val t i - step * val g i ≠ 0) → ∃ r, descendSite e env step t g = .ok r ∧ Dense r ∧
      (∀ n, leg r n = leg t n) ∧ ∃ m : β, m ≠ 0 ∧ (∀ i, e.abs (val t i - step * val g i) ≤ m) ∧
      (∃ i, e.abs (val t i - step * val g i) = m) ∧ ∀ i, val r i = (val t i - step * val g i) / e.c m) := by
  obtain ⟨g', g1, g2, g3, g4⟩ := dense_scalarNumber e.junk hg (f := fun y => step * y) (mul_zero _)
  obtain ⟨t', t1, t2, t3, t4⟩ := dense_inplace env (op := (· - ·)) (sub_zero 0) hd g2 fun n => (g3 n).trans (hl n)
  have hval : ∀ i, val t' i = val t i - step * val g i := fun i => by rw [t4, g4]
  refine ⟨fun h0 => ?_, ?_⟩
  · rw [descendSite, g1, Outcome.bind, t1, Outcome.bind, normalised,
      if_pos ((normMax_zero he t2).2 fun i => by rw [hval, h0])]
  · rintro ⟨i0, hi0⟩
    have hm : normMax e.abs t' ≠ 0 := fun h0 => hi0 (by rw [← hval]; exact (normMax_zero he t2).1 h0 i0)
    obtain ⟨n1, n2, n3⟩ := dense_number t2 (f := fun y => y / e.c (normMax e.abs t')) (zero_div _)
    obtain ⟨m1, m2, m3⟩ := C48_max e.abs t'
    refine ⟨scalarInplaceNumber (fun y => y / e.c (normMax e.abs t')) t', ?_, n1, fun n => (n2 n).trans (t3 n),
      normMax e.abs t', hm, fun i => ?_, ?_, fun i => by rw [n3, hval]⟩
    · rw [descendSite, g1, Outcome.bind, t1, Outcome.bind, normalised, if_neg hm]
    · rw [← hval]
      by_cases hv : ∀ n, leg t' n ≠ none → i n < legDim t' n
      · exact m1 _ ((dense_elems t2).2 ⟨i, hv, rfl⟩)
      · push Not at hv
        obtain ⟨n, hn, hx⟩ := hv
        rw [val_outside t2.wf hn hx, (he.abs_zero 0).2 rfl]
        exact m2
    · rcases m3 with m3 | ⟨y, hy, m3⟩
      · exact absurd m3 hm
      · obtain ⟨i, -, rfl⟩ := (dense_elems t2).1 hy
        exact ⟨i, by rw [← hval, ← m3]⟩

/-- C81: a step of the descent subtracts the gradient from every tensor and divides the tensor by its largest modulus;
the edges stay as they are. -/
theorem C81_descend (he : NetEnvOk e) (env : Env NoSymmetry α) {lattice : ℕ → ℕ → Tensor ν NoSymmetry α}
    (hs : SitesOn e.nm M N d lattice h v) {gradient : LatticeSite M N → Tensor ν NoSymmetry α}
    (hg : ∀ x, Dense (gradient x) ∧ ∀ n, leg (gradient x) n = leg (lattice x.1 x.2) n) (step : α)
    (hne : ∀ x : LatticeSite M N, ∃ i, val (lattice x.1 x.2) i - step * val (gradient x) i ≠ 0) :
    ∃ lattice', descend e env step lattice gradient = .ok lattice' ∧ SitesOn e.nm M N d lattice' h v ∧
      ∀ x : LatticeSite M N, ∃ m : β, m ≠ 0 ∧
        (∀ i, e.abs (val (lattice x.1 x.2) i - step * val (gradient x) i) ≤ m) ∧
        (∃ i, e.abs (val (lattice x.1 x.2) i - step * val (gradient x) i) = m) ∧
        ∀ i, val (lattice' x.1 x.2) i = (val (lattice x.1 x.2) i - step * val (gradient x) i) / e.c m := by
  have hsite := fun x : LatticeSite M N =>
    (descendSite_ok he env (hs.fits x.1 x.1.2 x.2 x.2.2).dense (hg x).1 (hg x).2 step).2 (hne x)
  choose r r1 r2 r3 r4 using hsite
  refine ⟨fun i j => if h : i < M ∧ j < N then r (⟨i, h.1⟩, ⟨j, h.2⟩) else lattice i j, ?_,
    ⟨fun i hi j hj => ?_, hs.left, hs.right, hs.top, hs.bottom⟩, fun x => ?_⟩
  · rw [descend, forSites_ok r1]
    rfl
  · rw [dif_pos ⟨hi, hj⟩]
    have hf := hs.fits i hi j hj
    have hr := r3 (⟨i, hi⟩, ⟨j, hj⟩)
    exact ⟨r2 _, (hr _).trans hf.left, (hr _).trans hf.right, (hr _).trans hf.up, (hr _).trans hf.down,
      (hr _).trans hf.phys, fun n hn => hf.only n (by rwa [hr] at hn)⟩
  · dsimp only
    rw [dif_pos ⟨x.1.2, x.2.2⟩]
    exact r4 x

/-- C81: if the difference vanishes at one site, the code divides by zero. -/
theorem C81_descend_zero (he : NetEnvOk e) (env : Env NoSymmetry α) {lattice : ℕ → ℕ → Tensor ν NoSymmetry α}
    (hs : SitesOn e.nm M N d lattice h v) {gradient : LatticeSite M N → Tensor ν NoSymmetry α}
    (hg : ∀ x, Dense (gradient x) ∧ ∀ n, leg (gradient x) n = leg (lattice x.1 x.2) n) (step : α)
    (hz : ∃ x : LatticeSite M N, ∀ i, val (lattice x.1 x.2) i - step * val (gradient x) i = 0) :
    descend e env step lattice gradient = .error "division by zero" := by
  have hsite := fun x : LatticeSite M N =>
    descendSite_ok he env (hs.fits x.1 x.1.2 x.2 x.2.2).dense (hg x).1 (hg x).2 step
  obtain ⟨x, hx⟩ := hz
  have key : ∀ (l : List (LatticeSite M N)) (init : LatticeSite M N → Tensor ν NoSymmetry α), x ∈ l →
      l.foldlM (fun g x => (descendSite e env step (lattice x.1 x.2) (gradient x)).bind fun a =>
        .ok (Function.update g x a)) init = .error "division by zero" := by
    intro l
    induction l with
    | nil => exact fun _ h0 => (List.not_mem_nil h0).elim
    | cons y l ih =>
      intro init hy
      rw [List.foldlM_cons]
      by_cases h0 : ∀ i, val (lattice y.1 y.2) i - step * val (gradient y) i = 0
      · rw [(hsite y).1 h0]
        rfl
      · have hyx : y ≠ x := by
          rintro rfl
          exact h0 hx
        push Not at h0
        obtain ⟨r, hr, -⟩ := (hsite y).2 h0
        rw [hr]
        exact ih _ ((List.mem_cons.1 hy).resolve_left (Ne.symm hyx))
  rw [descend, forSites, key _ _ (mem_latticeSites x)]
  rfl

end TAT
