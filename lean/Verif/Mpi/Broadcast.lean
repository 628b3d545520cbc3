import Verif.Mpi.Ranks
import Mathlib.Algebra.BigOperators.Group.Finset.Basic
import Mathlib.Algebra.Order.BigOperators.Group.Finset

/-!
# Lemmas on broadcast
-/

namespace TAT

variable {V : Type}

/-- The step in which a stored message is received. -/
def recvStep (s : Net V) (i src : ℕ) (k : V → Proc V) (v : V) (rest : List V) : Net V :=
  ⟨Function.update s.procs i (k v), setChan s.chan src i rest,
    Function.update s.received i (s.received i + 1)⟩

/-- The step in which a message is stored. -/
def sendStep (s : Net V) (i d : ℕ) (v : V) (k : Proc V) : Net V :=
  ⟨Function.update s.procs i k, setChan s.chan i d (s.chan i d ++ [v]), s.received⟩

/-- A counted invariant of storing and receiving is one of all steps: a send that meets its receive does
both. -/
theorem netSteps_induction {n : ℕ} (Inv : ℕ → Net V → Prop)
    (hrecv : ∀ c s i src k v rest, Inv c s → i < n → src < n → s.procs i = .recv src k →
      s.chan src i = v :: rest → Inv (c + 1) (recvStep s i src k v rest))
    (hsend : ∀ c s i d v k, Inv c s → i < n → d < n → s.procs i = .send d v k →
      Inv (c + 1) (sendStep s i d v k))
    {c : ℕ} {s s' : Net V} (h : NetSteps n c s s') (h0 : Inv 0 s) : ∃ c' ≥ c, Inv c' s' := by
  induction h with
  | refl => exact ⟨0, le_refl 0, h0⟩
  | tail c s0 t u hst hs ih =>
    obtain ⟨c', hc, hi⟩ := ih h0
    cases hs with
    | send i d v k h1 h2 h3 => exact ⟨c' + 1, by omega, hsend c' t i d v k hi h1 h2 h3⟩
    | must _ hm =>
      cases hm with
      | recv i src k v rest h1 h2 h3 h4 =>
        exact ⟨c' + 1, by omega, hrecv c' t i src k v rest hi h1 h2 h3 h4⟩
      | meet i j v k k' h1 h2 h3 h4 h5 =>
        have hij : j ≠ i := fun e => by rw [e, h3] at h4; cases h4
        have a := hsend c' t i j v k hi h1 h2 h3
        have b := hrecv (c' + 1) _ j i k' v [] a h2 h1
          (by simp only [sendStep]; rw [Function.update_of_ne hij]; exact h4)
          (by simp [sendStep, setChan, h5])
        refine ⟨c' + 2, by omega, ?_⟩
        have e : recvStep (sendStep t i j v k) j i k' v [] =
            ⟨Function.update (Function.update t.procs i k) j (k' v), t.chan,
              Function.update t.received j (t.received j + 1)⟩ := by
          unfold recvStep sendStep
          simp only [Net.mk.injEq, true_and, and_true]
          funext x y
          unfold setChan
          by_cases hxy : x = i ∧ y = j
          · rw [if_pos hxy, hxy.1, hxy.2, h5]
          · rw [if_neg hxy, if_neg hxy]
        rw [← e]
        exact b

/-- After the last send but one. -/
def bRight (n root f : ℕ) (w : V) : Proc V :=
  if f * 2 + 2 < n then .send (realRank n root (f * 2 + 2)) w (.done w) else .done w

/-- After the value is known. -/
def bLeft (n root f : ℕ) (w : V) : Proc V :=
  if f * 2 + 1 < n then .send (realRank n root (f * 2 + 1)) w (bRight n root f w) else bRight n root f w

/-- The process at position `f` of the tree waiting (0), before its first send (1), before its second
send (2), and at the end. -/
def bAt (n root : ℕ) (v : V) (f : ℕ) : ℕ → Proc V
  | 0 => .recv (realRank n root ((f - 1) / 2)) (bLeft n root f)
  | 1 => .send (realRank n root (f * 2 + 1)) v (bRight n root f v)
  | 2 => .send (realRank n root (f * 2 + 2)) v (.done v)
  | _ => .done v

/-- The stage after the value is known. -/
def bFirst (n f : ℕ) : ℕ := if f * 2 + 1 < n then 1 else 3

/-- The stage after the first send. -/
def bSecond (n f : ℕ) : ℕ := if f * 2 + 2 < n then 2 else 3

theorem bRight_eq (n root f : ℕ) (v : V) : bRight n root f v = bAt n root v f (bSecond n f) := by
  unfold bRight bSecond
  split <;> rfl

theorem bLeft_eq (n root f : ℕ) (v : V) : bLeft n root f v = bAt n root v f (bFirst n f) := by
  unfold bLeft bFirst
  split
  · rfl
  · rw [bRight_eq]
    unfold bSecond
    rw [if_neg (by omega)]

/-- The father in this stage has sent to the son at position `f`. -/
def Sent (stage f : ℕ) : Prop := if f % 2 = 1 then 2 ≤ stage else 3 ≤ stage

instance (stage f : ℕ) : Decidable (Sent stage f) := by unfold Sent; infer_instance

/-- A message is under way to position `f`. -/
def bFull (stage : ℕ → ℕ) (g f : ℕ) : Prop := f ≠ 0 ∧ g = (f - 1) / 2 ∧ Sent (stage g) f ∧ stage f = 0

instance (stage : ℕ → ℕ) (g f : ℕ) : Decidable (bFull stage g f) := by unfold bFull; infer_instance

/-- The invariant. -/
structure BInv (n root : ℕ) (v : V) (stage : ℕ → ℕ) (c : ℕ) (s : Net V) : Prop where
  proc : ∀ f < n, s.procs (realRank n root f) = bAt n root v f (stage f)
  chan : ∀ g < n, ∀ f < n, s.chan (realRank n root g) (realRank n root f) =
    if bFull stage g f then [v] else []
  zero : ∀ f < n, stage f = 0 → f ≠ 0
  one : ∀ f < n, stage f = 1 → f * 2 + 1 < n
  two : ∀ f < n, stage f = 2 → f * 2 + 2 < n
  le : ∀ f < n, stage f ≤ 3
  past : ∀ f < n, f ≠ 0 → stage f ≠ 0 → Sent (stage ((f - 1) / 2)) f
  received : ∀ f < n, s.received (realRank n root f) = if f = 0 ∨ stage f = 0 then 0 else 1
  count : c ≤ ∑ f ∈ Finset.range n, stage f

theorem sum_update_lt {n f x : ℕ} {stage : ℕ → ℕ} (hf : f < n) (hx : stage f < x) :
    (∑ g ∈ Finset.range n, stage g) + 1 ≤ ∑ g ∈ Finset.range n, Function.update stage f x g := by
  apply Nat.succ_le_of_lt
  apply Finset.sum_lt_sum
  · intro g _
    by_cases h : g = f
    · rw [h, Function.update_self]; omega
    · rw [Function.update_of_ne h]
  · exact ⟨f, Finset.mem_range.2 hf, by rw [Function.update_self]; exact hx⟩

theorem bInv_recv {n root : ℕ} (hr : root < n) {v : V} {c : ℕ} {s : Net V} {i src : ℕ}
    {k : V → Proc V} {w : V} {rest : List V} (h : ∃ stage, BInv n root v stage c s) (hi : i < n)
    (hp : s.procs i = .recv src k) (hc : s.chan src i = w :: rest) :
    ∃ stage, BInv n root v stage (c + 1) (recvStep s i src k w rest) := by
  obtain ⟨stage, h⟩ := h
  obtain ⟨f, hf, rfl⟩ : ∃ f < n, realRank n root f = i := ⟨_, fake_lt i hr, real_fake hr hi⟩
  have hst : stage f = 0 := by
    have h1 := h.proc f hf
    rw [hp] at h1
    rcases hs : stage f with _ | _ | _ | _
    · rfl
    all_goals (rw [hs] at h1; cases h1)
  have h1 := h.proc f hf
  rw [hp, hst] at h1
  simp only [bAt, Proc.recv.injEq] at h1
  obtain ⟨rfl, rfl⟩ := h1
  have hfa : (f - 1) / 2 < n := by omega
  have h0 := h.zero f hf hst
  have h2 := h.chan _ hfa f hf
  rw [hc] at h2
  have h3 : bFull stage ((f - 1) / 2) f := by
    by_contra hh
    rw [if_neg hh] at h2
    cases h2
  rw [if_pos h3] at h2
  obtain ⟨rfl, rfl⟩ : w = v ∧ rest = [] := by simpa using h2
  have hfirst : bFirst n f ≠ 0 ∧ bFirst n f ≤ 3 ∧ (bFirst n f = 1 → f * 2 + 1 < n) ∧ bFirst n f ≠ 2 := by
    unfold bFirst; split <;> omega
  have hne : (f - 1) / 2 ≠ f := by omega
  refine ⟨Function.update stage f (bFirst n f), ?_, ?_, ?_, ?_, ?_, ?_, ?_, ?_, ?_⟩
  · intro g hg
    simp only [recvStep]
    rw [update_real hr hf hg]
    by_cases e : g = f
    · rw [if_pos e, e, Function.update_self, bLeft_eq]
    · rw [if_neg e, Function.update_of_ne e, h.proc g hg]
  · intro g hg f' hf'
    simp only [recvStep]
    rw [setChan_real hr hfa hf hg hf', h.chan g hg f' hf']
    by_cases e : g = (f - 1) / 2 ∧ f' = f
    · rw [if_pos e, if_neg]
      rintro ⟨-, -, -, h4⟩
      rw [e.2, Function.update_self] at h4
      exact hfirst.1 h4
    · rw [if_neg e]
      congr 1
      unfold bFull
      apply propext
      by_cases e1 : f' = f
      · have e2 : g ≠ (f - 1) / 2 := fun c => e ⟨c, e1⟩
        rw [e1]
        constructor <;> (intro h5; exact absurd h5.2.1 e2)
      · rw [Function.update_of_ne e1]
        by_cases e3 : g = f
        · have hs0 : ¬ Sent (stage f) f' := by rw [hst]; unfold Sent; split <;> omega
          rw [e3, Function.update_self]
          constructor
          · intro h5; exact absurd h5.2.2.1 hs0
          · rintro ⟨h5, h6, h7, h8⟩
            exfalso
            have h9 : Sent (stage f) f' → False := hs0
            unfold Sent bFirst at h7
            have hb : f' = f * 2 + 1 ∨ f' = f * 2 + 2 := by omega
            split at h7 <;> split at h7 <;> omega
        · rw [Function.update_of_ne e3]
  · intro g hg e
    by_cases eg : g = f
    · rw [eg, Function.update_self] at e; exact absurd e hfirst.1
    · rw [Function.update_of_ne eg] at e; exact h.zero g hg e
  · intro g hg e
    by_cases eg : g = f
    · rw [eg, Function.update_self] at e; rw [eg]; exact hfirst.2.2.1 e
    · rw [Function.update_of_ne eg] at e; exact h.one g hg e
  · intro g hg e
    by_cases eg : g = f
    · rw [eg, Function.update_self] at e; exact absurd e hfirst.2.2.2
    · rw [Function.update_of_ne eg] at e; exact h.two g hg e
  · intro g hg
    by_cases eg : g = f
    · rw [eg, Function.update_self]; exact hfirst.2.1
    · rw [Function.update_of_ne eg]; exact h.le g hg
  · intro g hg hg0 e
    by_cases eg : g = f
    · rw [eg, Function.update_of_ne hne]; exact h3.2.2.1
    · rw [Function.update_of_ne eg] at e
      have h5 := h.past g hg hg0 e
      by_cases e2 : (g - 1) / 2 = f
      · rw [e2, hst] at h5
        exfalso
        unfold Sent at h5
        split at h5 <;> omega
      · rw [Function.update_of_ne e2]; exact h5
  · intro g hg
    simp only [recvStep]
    rw [update_real hr hf hg, h.received f hf, if_pos (Or.inr hst)]
    by_cases e : g = f
    · rw [if_pos e, e, Function.update_self, if_neg]
      rintro (h5 | h5)
      · exact h0 h5
      · exact hfirst.1 h5
    · rw [if_neg e, Function.update_of_ne e, h.received g hg]
  · have := h.count
    have := sum_update_lt (stage := stage) (x := bFirst n f) hf (by omega)
    omega

theorem bInv_send {n root : ℕ} (hr : root < n) {v : V} {c : ℕ} {s : Net V} {i d : ℕ}
    {k : Proc V} {w : V} (h : ∃ stage, BInv n root v stage c s) (hi : i < n)
    (hp : s.procs i = .send d w k) :
    ∃ stage, BInv n root v stage (c + 1) (sendStep s i d w k) := by
  obtain ⟨stage, h⟩ := h
  obtain ⟨f, hf, rfl⟩ : ∃ f < n, realRank n root f = i := ⟨_, fake_lt i hr, real_fake hr hi⟩
  -- the son and the next stage
  obtain ⟨son, hson, hson0, hfa, rfl, rfl, nx, hk, hlt, hle, hnx1, hnx2, hns, hsent, hoth⟩ :
      ∃ son < n, son ≠ 0 ∧ (son - 1) / 2 = f ∧ d = realRank n root son ∧ w = v ∧
        ∃ nx, k = bAt n root v f nx ∧ stage f < nx ∧ nx ≤ 3 ∧ (nx = 1 → f * 2 + 1 < n) ∧
          (nx = 2 → f * 2 + 2 < n) ∧ ¬ Sent (stage f) son ∧ Sent nx son ∧
          ∀ f' < n, f' ≠ 0 → (f' - 1) / 2 = f → f' ≠ son → (Sent nx f' ↔ Sent (stage f) f') := by
    have h1 := h.proc f hf
    rw [hp] at h1
    rcases hs : stage f with _ | _ | _ | _
    · rw [hs] at h1; cases h1
    · have hb := h.one f hf hs
      rw [hs] at h1
      simp only [Nat.zero_add, bAt, Proc.send.injEq] at h1
      obtain ⟨rfl, rfl, rfl⟩ := h1
      have hsec : bSecond n f = if f * 2 + 2 < n then 2 else 3 := rfl
      refine ⟨f * 2 + 1, hb, by omega, by omega, rfl, rfl, bSecond n f, bRight_eq n root f w, ?_, ?_, ?_,
        ?_, ?_, ?_, ?_⟩
      · rw [hsec]; split <;> omega
      · rw [hsec]; split <;> omega
      · rw [hsec]; split <;> omega
      · rw [hsec]; split <;> omega
      · unfold Sent; rw [if_pos (by omega)]; omega
      · unfold Sent; rw [if_pos (by omega), hsec]; split <;> omega
      · intro f' hf' h0 h2 h3
        have : f' = f * 2 + 2 := by omega
        unfold Sent
        rw [if_neg (by omega), if_neg (by omega), hsec, if_pos (by omega)]
        omega
    · have hb := h.two f hf hs
      rw [hs] at h1
      simp only [Nat.zero_add, Nat.reduceAdd, bAt, Proc.send.injEq] at h1
      obtain ⟨rfl, rfl, rfl⟩ := h1
      refine ⟨f * 2 + 2, hb, by omega, by omega, rfl, rfl, 3, rfl, by omega, by omega, by omega,
        by omega, ?_, ?_, ?_⟩
      · unfold Sent; rw [if_neg (by omega)]; omega
      · unfold Sent; rw [if_neg (by omega)]
      · intro f' hf' h0 h2 h3
        have : f' = f * 2 + 1 := by omega
        unfold Sent
        rw [if_pos (by omega), if_pos (by omega)]
        omega
    · rw [hs] at h1; cases h1
  have hne : son ≠ f := by omega
  have hson_st : stage son = 0 := by
    by_contra hh
    have := h.past son hson hson0 hh
    rw [hfa] at this
    exact hns this
  have hnx0 : nx ≠ 0 := by omega
  refine ⟨Function.update stage f nx, ?_, ?_, ?_, ?_, ?_, ?_, ?_, ?_, ?_⟩
  · intro g hg
    simp only [sendStep]
    rw [update_real hr hf hg]
    by_cases e : g = f
    · rw [if_pos e, e, Function.update_self, hk]
    · rw [if_neg e, Function.update_of_ne e, h.proc g hg]
  · intro g hg f' hf'
    simp only [sendStep]
    rw [setChan_real hr hf hson hg hf', h.chan g hg f' hf', h.chan f hf son hson]
    by_cases e : g = f ∧ f' = son
    · rw [if_pos e, if_neg (fun hh : bFull stage f son => hns hh.2.2.1), if_pos]
      · rfl
      · rw [e.1, e.2]
        refine ⟨hson0, hfa.symm, ?_, ?_⟩
        · rw [Function.update_self]; exact hsent
        · rw [Function.update_of_ne hne]; exact hson_st
    · rw [if_neg e]
      congr 1
      unfold bFull
      apply propext
      by_cases e1 : f' = f
      · have hst : stage f ≠ 0 := by
          intro h5
          have h6 := h.proc f hf
          rw [hp, h5] at h6
          cases h6
        rw [e1, Function.update_self]
        constructor
        · intro h5; exact absurd h5.2.2.2 hst
        · intro h5; exact absurd h5.2.2.2 hnx0
      · rw [Function.update_of_ne e1]
        by_cases e3 : g = f
        · have e4 : f' ≠ son := fun hh => e ⟨e3, hh⟩
          rw [e3, Function.update_self]
          constructor
          · rintro ⟨h5, h6, h7, h8⟩; exact ⟨h5, h6, (hoth f' hf' h5 h6.symm e4).2 h7, h8⟩
          · rintro ⟨h5, h6, h7, h8⟩; exact ⟨h5, h6, (hoth f' hf' h5 h6.symm e4).1 h7, h8⟩
        · rw [Function.update_of_ne e3]
  · intro g hg e
    by_cases eg : g = f
    · rw [eg, Function.update_self] at e; exact absurd e hnx0
    · rw [Function.update_of_ne eg] at e; exact h.zero g hg e
  · intro g hg e
    by_cases eg : g = f
    · rw [eg, Function.update_self] at e; rw [eg]; exact hnx1 e
    · rw [Function.update_of_ne eg] at e; exact h.one g hg e
  · intro g hg e
    by_cases eg : g = f
    · rw [eg, Function.update_self] at e; rw [eg]; exact hnx2 e
    · rw [Function.update_of_ne eg] at e; exact h.two g hg e
  · intro g hg
    by_cases eg : g = f
    · rw [eg, Function.update_self]; exact hle
    · rw [Function.update_of_ne eg]; exact h.le g hg
  · intro g hg hg0 e
    have hst0 : stage f ≠ 0 := by
      intro h5
      have h6 := h.proc f hf
      rw [hp, h5] at h6
      cases h6
    by_cases eg : g = f
    · have h5 := h.past f hf (by omega) hst0
      have : (f - 1) / 2 ≠ f := by omega
      rw [eg, Function.update_of_ne this]
      exact h5
    · rw [Function.update_of_ne eg] at e
      have h5 := h.past g hg hg0 e
      by_cases e2 : (g - 1) / 2 = f
      · rw [e2, Function.update_self]
        by_cases e3 : g = son
        · rw [e3]; exact hsent
        · rw [e2] at h5; exact (hoth g hg hg0 e2 e3).2 h5
      · rw [Function.update_of_ne e2]; exact h5
  · intro g hg
    simp only [sendStep]
    rw [h.received g hg]
    by_cases e : g = f
    · have hst0 : stage f ≠ 0 := by
        intro h5
        have h6 := h.proc f hf
        rw [hp, h5] at h6
        cases h6
      rw [e, Function.update_self]
      simp only [hst0, hnx0]
    · rw [Function.update_of_ne e]
  · have := h.count
    have := sum_update_lt (stage := stage) (x := nx) hf hlt
    omega

theorem bInv_start {n root : ℕ} (hr : root < n) (value : ℕ → V) :
    ∃ stage, BInv n root (value root) stage 0
      (netStart fun i => broadcastTree n root i (value i)) := by
  have hfirst : bFirst n 0 = if 1 < n then 1 else 3 := by unfold bFirst; simp
  refine ⟨fun f => if f = 0 then bFirst n 0 else 0, ?_, ?_, ?_, ?_, ?_, ?_, ?_, ?_, Nat.zero_le _⟩
  · intro f hf
    simp only [netStart, broadcastTree]
    rw [fake_real hr hf]
    by_cases e : f = 0
    · rw [if_neg (by simpa using e), if_pos e, e, real_zero hr, ← bLeft_eq]
      rfl
    · rw [if_pos e, if_neg e]
      rfl
  · intro g hg f hf
    rw [if_neg]
    · rfl
    · rintro ⟨h1, h2, h3, h4⟩
      revert h3
      unfold Sent
      dsimp only
      by_cases e : g = 0
      · rw [if_pos e, hfirst]
        split <;> split <;> omega
      · rw [if_neg e]
        split <;> omega
  · intro f hf h e
    rw [if_pos e, hfirst] at h
    split at h <;> omega
  · intro f hf h
    split at h
    · rw [hfirst] at h; split at h <;> omega
    · omega
  · intro f hf h
    split at h
    · rw [hfirst] at h; split at h <;> omega
    · omega
  · intro f hf
    split
    · rw [hfirst]; split <;> omega
    · omega
  · intro f hf h0 h
    rw [if_neg h0] at h
    exact absurd rfl h
  · intro f hf
    rw [if_pos]
    · rfl
    · by_cases e : f = 0
      · exact Or.inl e
      · exact Or.inr (if_neg e)

theorem bInv_steps {n root : ℕ} (hr : root < n) (value : ℕ → V) {c : ℕ} {s : Net V}
    (h : NetSteps n c (netStart fun i => broadcastTree n root i (value i)) s) :
    ∃ c' ≥ c, ∃ stage, BInv n root (value root) stage c' s :=
  netSteps_induction (fun c s => ∃ stage, BInv n root (value root) stage c s)
    (fun _ _ _ _ _ _ _ hi h1 _ h3 h4 => bInv_recv hr hi h1 h3 h4)
    (fun _ _ _ _ _ _ hi h1 _ h3 => bInv_send hr hi h1 h3) h (bInv_start hr value)

theorem bInv_progress {n root : ℕ} (hr : root < n) {v : V} {c : ℕ} {s : Net V} {stage : ℕ → ℕ}
    (h : BInv n root v stage c s) : (∀ f < n, stage f = 3) ∨ ∃ s', NetMust n s s' := by
  by_cases hall : ∀ f < n, stage f = 3
  · exact Or.inl hall
  right
  push Not at hall
  have hex : ∃ f, f < n ∧ stage f ≠ 3 := hall
  obtain ⟨hf, hne⟩ := Nat.find_spec hex
  have hmin := fun g => Nat.find_min hex (m := g)
  generalize Nat.find hex = f at *
  have hle := h.le f hf
  have hsons : ∀ son < n, son ≠ 0 → (son - 1) / 2 = f → ¬ Sent (stage f) son →
      s.procs (realRank n root son) = .recv (realRank n root f) (bLeft n root son) ∧
        s.chan (realRank n root f) (realRank n root son) = [] := by
    intro son h1 h2 h3 h4
    have h5 : stage son = 0 := by
      by_contra hh
      have := h.past son h1 h2 hh
      rw [h3] at this
      exact h4 this
    constructor
    · rw [h.proc son h1, h5]
      simp only [bAt]
      rw [h3]
    · rw [h.chan f hf son h1, if_neg fun hh => h4 hh.2.2.1]
  have hpf := h.proc f hf
  rcases hs : stage f with _ | _ | _ | m
  · have h0 := h.zero f hf hs
    have hfa : (f - 1) / 2 < f := by omega
    have h3 : stage ((f - 1) / 2) = 3 := by
      by_contra hh
      exact hmin _ hfa ⟨by omega, hh⟩
    have hc := h.chan ((f - 1) / 2) (by omega) f hf
    rw [if_pos ⟨h0, rfl, by rw [h3]; unfold Sent; split <;> omega, hs⟩] at hc
    rw [hs] at hpf
    exact ⟨_, NetMust.recv s _ _ _ v [] (real_lt f hr) (real_lt _ hr) hpf hc⟩
  · have hb := h.one f hf hs
    rw [hs] at hpf
    obtain ⟨h1, h2⟩ := hsons (f * 2 + 1) hb (by omega) (by omega)
      (by rw [hs]; unfold Sent; rw [if_pos (by omega)]; omega)
    exact ⟨_, NetMust.meet s _ _ _ _ _ (real_lt f hr) (real_lt _ hr) hpf h1 h2⟩
  · have hb := h.two f hf hs
    rw [hs] at hpf
    obtain ⟨h1, h2⟩ := hsons (f * 2 + 2) hb (by omega) (by omega)
      (by rw [hs]; unfold Sent; rw [if_neg (by omega)]; omega)
    exact ⟨_, NetMust.meet s _ _ _ _ _ (real_lt f hr) (real_lt _ hr) hpf h1 h2⟩
  · omega

end TAT
