import Verif.Mpi.Broadcast

/-!
# Lemmas on reduce
-/

namespace TAT

variable {V : Type}

/-- What the process at position `f` of the tree computes from the values by position. -/
def treeVal (fn : V → V → V) (val : ℕ → V) (n f : ℕ) : V :=
  if _h : f * 2 + 2 < n then fn (fn (val f) (treeVal fn val n (f * 2 + 1))) (treeVal fn val n (f * 2 + 2))
  else if _h : f * 2 + 1 < n then fn (val f) (treeVal fn val n (f * 2 + 1))
  else val f
termination_by n - f

/-- What it returns. -/
def treeRet (fn : V → V → V) (junk : V) (val : ℕ → V) (n f : ℕ) : V :=
  if f * 2 + 1 < n then treeVal fn val n f else junk

section

variable (fn : V → V → V) (junk : V) (val : ℕ → V) (n root : ℕ)

/-- After the last receive. -/
def rFather (f : ℕ) (r : V) : Proc V :=
  if f ≠ 0 then
    if f * 2 + 1 < n then .send (realRank n root ((f - 1) / 2)) r (.done r)
    else .send (realRank n root ((f - 1) / 2)) (val f) (.done r)
  else .done r

/-- After the first receive. -/
def rRight (f : ℕ) (r : V) : Proc V :=
  if f * 2 + 2 < n then .recv (realRank n root (f * 2 + 2)) fun x => rFather val n root f (fn r x)
  else rFather val n root f r

/-- The process at position `f` before its first receive (0), before its second receive (1), before its
send (2) and at the end. -/
def rAt (f : ℕ) : ℕ → Proc V
  | 0 => .recv (realRank n root (f * 2 + 1)) fun x => rRight fn val n root f (fn (val f) x)
  | 1 => .recv (realRank n root (f * 2 + 2)) fun x =>
      rFather val n root f (fn (fn (val f) (treeVal fn val n (f * 2 + 1))) x)
  | 2 => .send (realRank n root ((f - 1) / 2)) (treeVal fn val n f) (.done (treeRet fn junk val n f))
  | _ => .done (treeRet fn junk val n f)

end

/-- The stage after the last receive. -/
def rLast (f : ℕ) : ℕ := if f ≠ 0 then 2 else 3

/-- The stage after the first receive. -/
def rSecond (n f : ℕ) : ℕ := if f * 2 + 2 < n then 1 else rLast f

/-- The stage at the beginning. -/
def rFirst (n f : ℕ) : ℕ := if f * 2 + 1 < n then 0 else rLast f

theorem rLast_cases (f : ℕ) : (rLast f = 2 ∧ f ≠ 0) ∨ (rLast f = 3 ∧ f = 0) := by
  unfold rLast; split <;> omega

theorem rFather_eq (fn : V → V → V) (junk : V) (val : ℕ → V) (n root f : ℕ) (h : f * 2 + 1 < n) :
    rFather val n root f (treeVal fn val n f) = rAt fn junk val n root f (rLast f) := by
  unfold rFather rLast
  split
  · simp only [rAt, treeRet, if_pos h]
  · simp only [rAt, treeRet, if_pos h]

theorem rFather_leaf (fn : V → V → V) (junk : V) (val : ℕ → V) (n root f : ℕ) (h : ¬ f * 2 + 1 < n) :
    rFather val n root f junk = rAt fn junk val n root f (rLast f) := by
  have e : treeVal fn val n f = val f := by
    rw [treeVal, dif_neg (by omega), dif_neg h]
  unfold rFather rLast
  split
  · simp only [rAt, treeRet, if_neg h, e]
  · simp only [rAt, treeRet, if_neg h]

theorem treeVal_two (fn : V → V → V) (val : ℕ → V) (n f : ℕ) (h : f * 2 + 2 < n) :
    treeVal fn val n f =
      fn (fn (val f) (treeVal fn val n (f * 2 + 1))) (treeVal fn val n (f * 2 + 2)) := by
  rw [treeVal, dif_pos h]

theorem treeVal_one (fn : V → V → V) (val : ℕ → V) (n f : ℕ) (h : f * 2 + 1 < n) (h' : ¬ f * 2 + 2 < n) :
    treeVal fn val n f = fn (val f) (treeVal fn val n (f * 2 + 1)) := by
  rw [treeVal, dif_neg h', dif_pos h]

theorem treeVal_leaf (fn : V → V → V) (val : ℕ → V) (n f : ℕ) (h : ¬ f * 2 + 1 < n) :
    treeVal fn val n f = val f := by
  rw [treeVal, dif_neg (by omega), dif_neg h]

theorem rRight_eq (fn : V → V → V) (junk : V) (val : ℕ → V) (n root f : ℕ) (h : f * 2 + 1 < n) :
    rRight fn val n root f (fn (val f) (treeVal fn val n (f * 2 + 1))) =
      rAt fn junk val n root f (rSecond n f) := by
  unfold rRight rSecond
  by_cases h2 : f * 2 + 2 < n
  · rw [if_pos h2, if_pos h2]; rfl
  · rw [if_neg h2, if_neg h2, ← treeVal_one fn val n f h h2, rFather_eq fn junk val n root f h]

/-- The father in this stage has received from the son at position `f`. -/
def Got (stage f : ℕ) : Prop := if f % 2 = 1 then 1 ≤ stage else 2 ≤ stage

instance (stage f : ℕ) : Decidable (Got stage f) := by unfold Got; infer_instance

/-- A message is under way from position `f`. -/
def rFull (stage : ℕ → ℕ) (f g : ℕ) : Prop := f ≠ 0 ∧ g = (f - 1) / 2 ∧ stage f = 3 ∧ ¬ Got (stage g) f

instance (stage : ℕ → ℕ) (f g : ℕ) : Decidable (rFull stage f g) := by unfold rFull; infer_instance

/-- The invariant. -/
structure RInv (fn : V → V → V) (junk : V) (val : ℕ → V) (n root : ℕ) (stage : ℕ → ℕ) (c : ℕ)
    (s : Net V) : Prop where
  proc : ∀ f < n, s.procs (realRank n root f) = rAt fn junk val n root f (stage f)
  chan : ∀ f < n, ∀ g < n, s.chan (realRank n root f) (realRank n root g) =
    if rFull stage f g then [treeVal fn val n f] else []
  zero : ∀ f < n, stage f = 0 → f * 2 + 1 < n
  one : ∀ f < n, stage f = 1 → f * 2 + 2 < n
  two : ∀ f < n, stage f = 2 → f ≠ 0
  le : ∀ f < n, stage f ≤ 3
  past : ∀ f < n, f ≠ 0 → Got (stage ((f - 1) / 2)) f → stage f = 3
  count : c ≤ ∑ f ∈ Finset.range n, stage f

theorem rInv_recv {fn : V → V → V} {junk : V} {val : ℕ → V} {n root : ℕ} (hr : root < n) {c : ℕ}
    {s : Net V} {i src : ℕ} {k : V → Proc V} {w : V} {rest : List V}
    (h : ∃ stage, RInv fn junk val n root stage c s) (hi : i < n)
    (hp : s.procs i = .recv src k) (hc : s.chan src i = w :: rest) :
    ∃ stage, RInv fn junk val n root stage (c + 1) (recvStep s i src k w rest) := by
  obtain ⟨stage, h⟩ := h
  obtain ⟨f, hf, rfl⟩ : ∃ f < n, realRank n root f = i := ⟨_, fake_lt i hr, real_fake hr hi⟩
  have hlast := rLast_cases f
  -- the son and the next stage
  obtain ⟨son, hson, hson0, hfa, rfl, nx, hk, hlt, hle, hnx1, hnx2, hng, hgot, hoth⟩ :
      ∃ son < n, son ≠ 0 ∧ (son - 1) / 2 = f ∧ src = realRank n root son ∧
        ∃ nx, k (treeVal fn val n son) = rAt fn junk val n root f nx ∧ stage f < nx ∧ nx ≤ 3 ∧
          (nx = 1 → f * 2 + 2 < n) ∧ (nx = 2 → f ≠ 0) ∧ ¬ Got (stage f) son ∧ Got nx son ∧
          ∀ f' < n, f' ≠ 0 → (f' - 1) / 2 = f → f' ≠ son → (Got nx f' ↔ Got (stage f) f') := by
    have h1 := h.proc f hf
    rw [hp] at h1
    rcases hs : stage f with _ | _ | _ | _
    · have hb := h.zero f hf hs
      rw [hs] at h1
      simp only [rAt, Proc.recv.injEq] at h1
      obtain ⟨rfl, rfl⟩ := h1
      have hsec : rSecond n f = if f * 2 + 2 < n then 1 else rLast f := rfl
      refine ⟨f * 2 + 1, hb, by omega, by omega, rfl, rSecond n f, rRight_eq fn junk val n root f hb, ?_,
        ?_, ?_, ?_, ?_, ?_, ?_⟩
      · rw [hsec]; split <;> omega
      · rw [hsec]; split <;> omega
      · rw [hsec]; split <;> omega
      · rw [hsec]; split <;> omega
      · unfold Got; rw [if_pos (by omega)]; omega
      · unfold Got; rw [if_pos (by omega), hsec]; split <;> omega
      · intro f' hf' h0 h2 h3
        have : f' = f * 2 + 2 := by omega
        unfold Got
        rw [if_neg (by omega), if_neg (by omega), hsec, if_pos (by omega)]
        omega
    · have hb := h.one f hf hs
      rw [hs] at h1
      simp only [Nat.zero_add, rAt, Proc.recv.injEq] at h1
      obtain ⟨rfl, rfl⟩ := h1
      refine ⟨f * 2 + 2, hb, by omega, by omega, rfl, rLast f, ?_, by omega, by omega, by omega,
        by omega, ?_, ?_, ?_⟩
      · dsimp only
        rw [← treeVal_two fn val n f hb, rFather_eq fn junk val n root f (by omega)]
      · unfold Got; rw [if_neg (by omega)]; omega
      · unfold Got; rw [if_neg (by omega)]; omega
      · intro f' hf' h0 h2 h3
        have : f' = f * 2 + 1 := by omega
        unfold Got
        rw [if_pos (by omega), if_pos (by omega)]
        omega
    · rw [hs] at h1; cases h1
    · rw [hs] at h1; cases h1
  have hne : son ≠ f := by omega
  have h2 := h.chan son hson f hf
  rw [hc] at h2
  have h3 : rFull stage son f := by
    by_contra hh
    rw [if_neg hh] at h2
    cases h2
  rw [if_pos h3] at h2
  obtain ⟨rfl, rfl⟩ : w = treeVal fn val n son ∧ rest = [] := by simpa using h2
  have hst3 : stage f ≠ 3 := by omega
  have hnx0 : nx ≠ 0 := by omega
  have hnx3 : nx = 3 → f = 0 := by
    intro e
    have h1 := h.proc f hf
    by_contra h0
    -- a process with a father sends before it ends
    rcases hs : stage f with _ | _ | m
    · rw [hp, hs] at h1
      simp only [rAt, Proc.recv.injEq] at h1
      have hb := h.zero f hf hs
      have : son = f * 2 + 1 := (real_inj hr hson hb).1 h1.1
      rw [h1.2] at hk
      simp only [this] at hk
      rw [rRight_eq fn junk val n root f hb, e] at hk
      have : rSecond n f = 1 ∨ rSecond n f = 2 := by unfold rSecond; split <;> omega
      rcases this with e2 | e2 <;> (rw [e2] at hk; cases hk)
    · rw [hp, hs] at h1
      simp only [Nat.zero_add, rAt, Proc.recv.injEq] at h1
      have hb := h.one f hf hs
      have : son = f * 2 + 2 := (real_inj hr hson hb).1 h1.1
      rw [h1.2] at hk
      simp only [this] at hk
      rw [← treeVal_two fn val n f hb, rFather_eq fn junk val n root f (by omega), e] at hk
      have : rLast f = 2 := by omega
      rw [this] at hk
      cases hk
    · rw [hp, hs] at h1
      have : m = 0 := by omega
      rw [this] at h1
      cases h1
  refine ⟨Function.update stage f nx, ?_, ?_, ?_, ?_, ?_, ?_, ?_, ?_⟩
  · intro g hg
    simp only [recvStep]
    rw [update_real hr hf hg]
    by_cases e : g = f
    · rw [if_pos e, e, Function.update_self, hk]
    · rw [if_neg e, Function.update_of_ne e, h.proc g hg]
  · intro f' hf' g hg
    simp only [recvStep]
    rw [setChan_real hr hson hf hf' hg, h.chan f' hf' g hg]
    by_cases e : f' = son ∧ g = f
    · rw [if_pos e, if_neg]
      rintro ⟨-, -, -, h4⟩
      rw [e.1, e.2, Function.update_self] at h4
      exact h4 hgot
    · rw [if_neg e]
      congr 1
      unfold rFull
      apply propext
      by_cases e1 : f' = f
      · rw [e1, Function.update_self]
        constructor
        · intro h5; exact absurd h5.2.2.1 hst3
        · intro h5; exact absurd (hnx3 h5.2.2.1) h5.1
      · rw [Function.update_of_ne e1]
        by_cases e3 : g = f
        · have e4 : f' ≠ son := fun hh => e ⟨hh, e3⟩
          rw [e3, Function.update_self]
          constructor
          · rintro ⟨h5, h6, h7, h8⟩
            exact ⟨h5, h6, h7, fun h9 => h8 ((hoth f' hf' h5 h6.symm e4).1 h9)⟩
          · rintro ⟨h5, h6, h7, h8⟩
            exact ⟨h5, h6, h7, fun h9 => h8 ((hoth f' hf' h5 h6.symm e4).2 h9)⟩
        · rw [Function.update_of_ne e3]
  · intro g hg e
    by_cases eg : g = f
    · rw [eg, Function.update_self] at e; exact absurd e hnx0
    · rw [Function.update_of_ne eg] at e; exact h.zero g hg e
  · intro g hg e
    by_cases eg : g = f
    · rw [eg, Function.update_self] at e; rw [eg]; exact hnx1 e
    · rw [Function.update_of_ne eg] at e; exact h.one g hg e
  · intro g hg e
    by_cases eg : g = f
    · rw [eg, Function.update_self] at e; rw [eg]; exact hnx2 e
    · rw [Function.update_of_ne eg] at e; exact h.two g hg e
  · intro g hg
    by_cases eg : g = f
    · rw [eg, Function.update_self]; exact hle
    · rw [Function.update_of_ne eg]; exact h.le g hg
  · intro g hg hg0 e
    by_cases eg : g = f
    · rw [eg] at e ⊢
      have hfn : (f - 1) / 2 ≠ f := by omega
      rw [Function.update_of_ne hfn] at e
      exact absurd (h.past f hf (by omega) e) hst3
    · rw [Function.update_of_ne eg]
      by_cases e2 : (g - 1) / 2 = f
      · rw [e2, Function.update_self] at e
        by_cases e3 : g = son
        · rw [e3]; exact h3.2.2.1
        · exact h.past g hg hg0 (by rw [e2]; exact (hoth g hg hg0 e2 e3).1 e)
      · rw [Function.update_of_ne e2] at e
        exact h.past g hg hg0 e
  · have := h.count
    have := sum_update_lt (stage := stage) (x := nx) hf hlt
    omega

theorem rInv_send {fn : V → V → V} {junk : V} {val : ℕ → V} {n root : ℕ} (hr : root < n) {c : ℕ}
    {s : Net V} {i d : ℕ} {k : Proc V} {w : V}
    (h : ∃ stage, RInv fn junk val n root stage c s) (hi : i < n) (hp : s.procs i = .send d w k) :
    ∃ stage, RInv fn junk val n root stage (c + 1) (sendStep s i d w k) := by
  obtain ⟨stage, h⟩ := h
  obtain ⟨f, hf, rfl⟩ : ∃ f < n, realRank n root f = i := ⟨_, fake_lt i hr, real_fake hr hi⟩
  have h1 := h.proc f hf
  have hs : stage f = 2 := by
    rw [hp] at h1
    rcases hs : stage f with _ | _ | _ | _
    · rw [hs] at h1; cases h1
    · rw [hs] at h1; cases h1
    · rfl
    · rw [hs] at h1; cases h1
  rw [hp, hs] at h1
  simp only [rAt, Proc.send.injEq] at h1
  obtain ⟨rfl, rfl, rfl⟩ := h1
  have h0 := h.two f hf hs
  have hfa : (f - 1) / 2 < n := by omega
  have hne : (f - 1) / 2 ≠ f := by omega
  have hng : ¬ Got (stage ((f - 1) / 2)) f := fun hh => by
    have := h.past f hf h0 hh
    omega
  refine ⟨Function.update stage f 3, ?_, ?_, ?_, ?_, ?_, ?_, ?_, ?_⟩
  · intro g hg
    simp only [sendStep]
    rw [update_real hr hf hg]
    by_cases e : g = f
    · rw [if_pos e, e, Function.update_self]; rfl
    · rw [if_neg e, Function.update_of_ne e, h.proc g hg]
  · intro f' hf' g hg
    simp only [sendStep]
    rw [setChan_real hr hf hfa hf' hg, h.chan f' hf' g hg, h.chan f hf _ hfa]
    by_cases e : f' = f ∧ g = (f - 1) / 2
    · rw [if_pos e, if_neg (fun hh : rFull stage f _ => by have := hh.2.2.1; omega), if_pos]
      · rw [e.1]; rfl
      · rw [e.1, e.2]
        refine ⟨h0, rfl, by rw [Function.update_self], ?_⟩
        rw [Function.update_of_ne hne]; exact hng
    · rw [if_neg e]
      congr 1
      unfold rFull
      apply propext
      by_cases e1 : f' = f
      · have e4 : g ≠ (f - 1) / 2 := fun hh => e ⟨e1, hh⟩
        rw [e1]
        constructor <;> (intro h5; exact absurd h5.2.1 e4)
      · rw [Function.update_of_ne e1]
        by_cases e3 : g = f
        · rw [e3, Function.update_self, hs]
          have : Got 3 f' ↔ Got 2 f' := by unfold Got; split <;> omega
          rw [this]
        · rw [Function.update_of_ne e3]
  · intro g hg e
    by_cases eg : g = f
    · rw [eg, Function.update_self] at e; omega
    · rw [Function.update_of_ne eg] at e; exact h.zero g hg e
  · intro g hg e
    by_cases eg : g = f
    · rw [eg, Function.update_self] at e; omega
    · rw [Function.update_of_ne eg] at e; exact h.one g hg e
  · intro g hg e
    by_cases eg : g = f
    · rw [eg, Function.update_self] at e; omega
    · rw [Function.update_of_ne eg] at e; exact h.two g hg e
  · intro g hg
    by_cases eg : g = f
    · rw [eg, Function.update_self]
    · rw [Function.update_of_ne eg]; exact h.le g hg
  · intro g hg hg0 e
    by_cases eg : g = f
    · rw [eg, Function.update_self]
    · rw [Function.update_of_ne eg]
      by_cases e2 : (g - 1) / 2 = f
      · rw [e2, Function.update_self] at e
        refine h.past g hg hg0 ?_
        rw [e2, hs]
        revert e
        unfold Got
        split <;> omega
      · rw [Function.update_of_ne e2] at e
        exact h.past g hg hg0 e
  · have := h.count
    have := sum_update_lt (stage := stage) (x := 3) hf (by omega)
    omega

theorem rInv_start {fn : V → V → V} {junk : V} {n root : ℕ} (hr : root < n) (value : ℕ → V) :
    ∃ stage, RInv fn junk (fun f => value (realRank n root f)) n root stage 0
      (netStart fun i => reduceTree fn junk n root i (value i)) := by
  refine ⟨fun f => rFirst n f, ?_, ?_, ?_, ?_, ?_, ?_, ?_, Nat.zero_le _⟩
  · intro f hf
    simp only [netStart, reduceTree]
    rw [fake_real hr hf]
    unfold rFirst
    by_cases h : f * 2 + 1 < n
    · rw [if_pos h, if_pos h]; rfl
    · rw [if_neg h, if_neg (show ¬ f * 2 + 2 < n by omega),
        show (if f * 2 + 1 < n then 0 else rLast f) = rLast f from if_neg h,
        ← rFather_leaf fn junk (fun f => value (realRank n root f)) n root f h]
      rfl
  · intro f hf g hg
    rw [if_neg]
    · rfl
    · rintro ⟨h1, h2, h3, h4⟩
      dsimp only [rFirst] at h3
      have := rLast_cases f
      split at h3 <;> omega
  · intro f hf h
    dsimp only [rFirst] at h
    have := rLast_cases f
    split at h <;> omega
  · intro f hf h
    dsimp only [rFirst] at h
    have := rLast_cases f
    split at h <;> omega
  · intro f hf h
    dsimp only [rFirst] at h
    have := rLast_cases f
    split at h <;> omega
  · intro f hf
    have := rLast_cases f
    dsimp only [rFirst]
    split <;> omega
  · intro f hf h0 h
    exfalso
    revert h
    unfold Got
    dsimp only [rFirst]
    rw [if_pos (show (f - 1) / 2 * 2 + 1 < n by omega)]
    split <;> omega

theorem rInv_steps {fn : V → V → V} {junk : V} {n root : ℕ} (hr : root < n) (value : ℕ → V) {c : ℕ}
    {s : Net V} (h : NetSteps n c (netStart fun i => reduceTree fn junk n root i (value i)) s) :
    ∃ c' ≥ c, ∃ stage, RInv fn junk (fun f => value (realRank n root f)) n root stage c' s :=
  netSteps_induction (fun c s => ∃ stage, RInv fn junk (fun f => value (realRank n root f)) n root stage c s)
    (fun _ _ _ _ _ _ _ hi h1 _ h3 h4 => rInv_recv hr hi h1 h3 h4)
    (fun _ _ _ _ _ _ hi h1 _ h3 => rInv_send hr hi h1 h3) h (rInv_start hr value)

theorem rInv_progress {fn : V → V → V} {junk : V} {val : ℕ → V} {n root : ℕ} (hr : root < n) {c : ℕ}
    {s : Net V} {stage : ℕ → ℕ} (h : RInv fn junk val n root stage c s) :
    (∀ f < n, stage f = 3) ∨ ∃ s', NetMust n s s' := by
  -- the last process that waits for a son
  by_cases hex : ∃ m, m < n ∧ stage (n - 1 - m) ≤ 1
  · right
    obtain ⟨hm, hst⟩ := Nat.find_spec hex
    have hmin := fun g => Nat.find_min hex (m := g)
    generalize Nat.find hex = m at *
    obtain ⟨f, hf, hfm⟩ : ∃ f, f < n ∧ f = n - 1 - m := ⟨n - 1 - m, by omega, rfl⟩
    rw [← hfm] at hst
    have hlater : ∀ g < n, f < g → 2 ≤ stage g := by
      intro g hg hfg
      by_contra hh
      refine hmin (n - 1 - g) (by omega) ⟨by omega, ?_⟩
      have : n - 1 - (n - 1 - g) = g := by omega
      rw [this]
      omega
    have hson : ∃ son < n, son ≠ 0 ∧ (son - 1) / 2 = f ∧ f < son ∧ ¬ Got (stage f) son ∧
        ∃ k, s.procs (realRank n root f) = .recv (realRank n root son) k := by
      have hp := h.proc f hf
      rcases hs : stage f with _ | _ | _
      · rw [hs] at hp
        exact ⟨f * 2 + 1, h.zero f hf hs, by omega, by omega, by omega,
          by unfold Got; rw [if_pos (by omega)]; omega, _, hp⟩
      · rw [hs] at hp
        exact ⟨f * 2 + 2, h.one f hf hs, by omega, by omega, by omega,
          by unfold Got; rw [if_neg (by omega)]; omega, _, hp⟩
      · omega
    obtain ⟨son, h1, h2, h3, h4, h5, k, hk⟩ := hson
    have h6 := hlater son h1 h4
    have h7 := h.le son h1
    have hc := h.chan son h1 f hf
    by_cases h8 : stage son = 3
    · rw [if_pos ⟨h2, h3.symm, h8, h5⟩] at hc
      exact ⟨_, NetMust.recv s _ _ _ _ _ (real_lt f hr) (real_lt son hr) hk hc⟩
    · rw [if_neg fun hh : rFull stage son f => h8 hh.2.2.1] at hc
      have h9 : stage son = 2 := by omega
      have hp := h.proc son h1
      rw [h9] at hp
      simp only [rAt, h3] at hp
      exact ⟨_, NetMust.meet s _ _ _ _ _ (real_lt son hr) (real_lt f hr) hp hk hc⟩
  · -- nobody waits, so everybody has been heard
    left
    intro f hf
    have hno : ∀ g < n, 2 ≤ stage g := by
      intro g hg
      by_contra hh
      refine hex ⟨n - 1 - g, by omega, ?_⟩
      have : n - 1 - (n - 1 - g) = g := by omega
      rw [this]
      omega
    have h1 := hno f hf
    have h2 := h.le f hf
    by_cases h0 : f = 0
    · by_contra hh
      exact h.two f hf (by omega) h0
    · refine h.past f hf h0 ?_
      have := hno ((f - 1) / 2) (by omega)
      unfold Got
      split <;> omega

end TAT
