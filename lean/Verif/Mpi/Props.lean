import Verif.Mpi.Reduce
import Mathlib.Data.List.Perm.Basic
import Mathlib.Data.List.Perm.Subperm
import Mathlib.Data.List.Nodup
import Mathlib.Tactic.IntervalCases

/-!
# Properties of collective communication

C42 and C43.  `NetSteps` has any schedule and lets every send be stored or wait for its receive; the
steps of `NetMust` cannot be refused by MPI, so that a state with such a step is not a deadlock.
-/

namespace TAT

variable {V : Type}

/-- The execution can only end when every process has returned. -/
def NoDeadlock (n : ℕ) (s : Net V) : Prop :=
  (∀ i < n, ∃ r, s.procs i = .done r) ∨ ∃ s', NetMust n s s'

theorem sum_stage_le {n : ℕ} {stage : ℕ → ℕ} (h : ∀ f < n, stage f ≤ 3) :
    ∑ f ∈ Finset.range n, stage f ≤ 3 * n := by
  calc _ ≤ ∑ _f ∈ Finset.range n, 3 := Finset.sum_le_sum fun f hf => h f (Finset.mem_range.1 hf)
    _ = 3 * n := by simp [Nat.mul_comm]

/-- **C42**: in every execution of `broadcast`, whatever the schedule, a process that has returned has
the value of the root; there is no deadlock and no execution takes more than `3 n` steps; in the end no
message is left, and every process but the root has received exactly once. -/
theorem C42_broadcast {n : ℕ} {root : Int} (h0 : 0 ≤ root) (h1 : root < n) (value : ℕ → V)
    {prog : ℕ → Proc V} (hprog : ∀ i, broadcast n root i (value i) = .ok (prog i)) {c : ℕ} {s : Net V}
    (hs : NetSteps n c (netStart prog) s) :
    (∀ i < n, ∀ r, s.procs i = .done r → r = value root.toNat) ∧ NoDeadlock n s ∧ c ≤ 3 * n ∧
      ((∀ i < n, ∃ r, s.procs i = .done r) → (∀ i < n, ∀ j < n, s.chan i j = []) ∧
        ∀ i < n, s.received i = if i = root.toNat then 0 else 1) := by
  have hr : root.toNat < n := by omega
  have hp : prog = fun i => broadcastTree n root.toNat i (value i) := by
    funext i
    have := hprog i
    unfold broadcast at this
    by_cases hn : n = 1
    · rw [if_pos hn] at this
      have e : root.toNat = 0 := by omega
      have hz : fakeRank 1 0 i = 0 := Nat.lt_one_iff.1 (Nat.mod_lt _ (by omega))
      rw [← Outcome.ok.inj this, e, hn]
      unfold broadcastTree
      rw [hz]
      rfl
    · rw [if_neg hn, if_neg (by omega)] at this
      exact (Outcome.ok.inj this).symm
  rw [hp] at hs
  obtain ⟨c', hc, stage, h⟩ := bInv_steps hr value hs
  have hdone : ∀ f < n, ∀ r, s.procs (realRank n root.toNat f) = .done r →
      stage f = 3 ∧ r = value root.toNat := by
    intro f hf r e
    rw [h.proc f hf] at e
    have hle := h.le f hf
    rcases hst : stage f with _ | _ | _ | m
    · rw [hst] at e; cases e
    · rw [hst] at e; cases e
    · rw [hst] at e; cases e
    · rw [hst] at e
      exact ⟨by omega, (Proc.done.inj e).symm⟩
  refine ⟨?_, ?_, ?_, ?_⟩
  · rw [forall_real hr]
    exact fun f hf r e => (hdone f hf r e).2
  · rcases bInv_progress hr h with h3 | h3
    · left
      rw [forall_real hr]
      intro f hf
      rw [h.proc f hf, h3 f hf]
      exact ⟨_, rfl⟩
    · exact Or.inr h3
  · have := h.count
    have := sum_stage_le h.le
    omega
  · intro hall
    rw [forall_real hr] at hall
    have h3 : ∀ f < n, stage f = 3 := fun f hf => by
      obtain ⟨r, e⟩ := hall f hf
      exact (hdone f hf r e).1
    constructor
    · rw [forall_real hr]
      intro g hg
      rw [forall_real hr]
      intro f hf
      rw [h.chan g hg f hf, if_neg]
      intro hh
      have := hh.2.2.2
      have := h3 f hf
      omega
    · rw [forall_real hr]
      intro f hf
      rw [h.received f hf]
      have e : realRank n root.toNat f = root.toNat ↔ f = 0 := by
        rw [← real_inj hr hf (show 0 < n by omega), real_zero hr]
      have := h3 f hf
      by_cases hf0 : f = 0
      · rw [if_pos (Or.inl hf0), if_pos (e.2 hf0)]
      · rw [if_neg (by omega), if_neg fun c => hf0 (e.1 c)]

theorem exists_complete {n b : ℕ} {s0 : Net V}
    (h : ∀ c s, NetSteps n c s0 s → NoDeadlock n s ∧ c ≤ b) :
    ∃ c s, NetSteps n c s0 s ∧ ∀ i < n, ∃ r, s.procs i = .done r := by
  by_contra hno
  have : ∀ c, ∃ s, NetSteps n c s0 s := by
    intro c
    induction c with
    | zero => exact ⟨s0, .refl s0⟩
    | succ c ih =>
      obtain ⟨s, hs⟩ := ih
      rcases (h c s hs).1 with hd | ⟨s', hm⟩
      · exact absurd ⟨c, s, hs, hd⟩ hno
      · exact ⟨s', .tail c s0 s s' hs (.must s s' hm)⟩
  obtain ⟨s, hs⟩ := this (b + 1)
  have := (h _ s hs).2
  omega

/-- **C42**: there is an execution to the end, for any number of processes and any root. -/
theorem C42_completes {n : ℕ} {root : Int} (h0 : 0 ≤ root) (h1 : root < n) (value : ℕ → V)
    {prog : ℕ → Proc V} (hprog : ∀ i, broadcast n root i (value i) = .ok (prog i)) :
    ∃ c s, NetSteps n c (netStart prog) s ∧ ∀ i < n, s.procs i = .done (value root.toNat) := by
  obtain ⟨c, s, hs, hd⟩ := exists_complete fun c s hs =>
    ⟨(C42_broadcast h0 h1 value hprog hs).2.1, (C42_broadcast h0 h1 value hprog hs).2.2.1⟩
  refine ⟨c, s, hs, fun i hi => ?_⟩
  obtain ⟨r, hr⟩ := hd i hi
  rw [hr, (C42_broadcast h0 h1 value hprog hs).1 i hi r hr]

/-- **C42**: with more than one process a root that does not exist is an error on every process. -/
theorem C42_invalid_root {n : ℕ} {root : Int} (hn : n ≠ 1) (h : root < 0 ∨ (n : Int) ≤ root) (i : ℕ)
    (v : V) : (broadcast n root i v).isError ∧ ∀ (f : V → V → V) (junk : V),
      (reduce f junk n root i v).isError := by
  constructor
  · unfold broadcast
    rw [if_neg hn, if_pos (by omega)]
    rfl
  · intro f junk
    unfold reduce
    rw [if_neg hn, if_pos (by omega)]
    rfl

/-- Five processes with root 3. -/
example : ∀ i, broadcast 5 3 i (i * 10) = .ok (broadcastTree 5 3 i (i * 10)) := fun _ => rfl

/-- The order in which the tree combines positions: a process, its left branch, its right branch. -/
def preorder (n f : ℕ) : List ℕ :=
  if _h : f * 2 + 2 < n then f :: (preorder n (f * 2 + 1) ++ preorder n (f * 2 + 2))
  else if _h : f * 2 + 1 < n then f :: preorder n (f * 2 + 1)
  else [f]
termination_by n - f

/-- The combination of a list of values from left to right. -/
def combine (fn : V → V → V) : List V → Option V
  | [] => none
  | x :: xs => some (xs.foldl fn x)

theorem foldl_assoc' {fn : V → V → V} (ha : ∀ a b c, fn (fn a b) c = fn a (fn b c)) (a b : V)
    (l : List V) : l.foldl fn (fn a b) = fn a (l.foldl fn b) := by
  induction l generalizing b with
  | nil => rfl
  | cons x l ih => rw [List.foldl_cons, List.foldl_cons, ha, ih]

theorem combine_cons {fn : V → V → V} (ha : ∀ a b c, fn (fn a b) c = fn a (fn b c)) (a : V)
    {l : List V} {x : V} (h : combine fn l = some x) : combine fn (a :: l) = some (fn a x) := by
  cases l with
  | nil => cases h
  | cons y l =>
    obtain rfl := Option.some.inj h
    show some (l.foldl fn (fn a y)) = _
    rw [foldl_assoc' ha]

theorem combine_append {fn : V → V → V} (ha : ∀ a b c, fn (fn a b) c = fn a (fn b c)) {l l' : List V}
    {x y : V} (h : combine fn l = some x) (h' : combine fn l' = some y) :
    combine fn (l ++ l') = some (fn x y) := by
  induction l generalizing x with
  | nil => cases h
  | cons a l ih =>
    cases l with
    | nil =>
      obtain rfl := Option.some.inj h
      exact combine_cons ha a h'
    | cons b l =>
      obtain ⟨z, hz⟩ : ∃ z, combine fn (b :: l) = some z := ⟨_, rfl⟩
      rw [combine_cons ha a hz] at h
      obtain rfl := Option.some.inj h
      rw [List.cons_append, combine_cons ha a (ih hz), ha]

theorem treeVal_combine {fn : V → V → V} (ha : ∀ a b c, fn (fn a b) c = fn a (fn b c)) (val : ℕ → V)
    (n f : ℕ) : combine fn ((preorder n f).map val) = some (treeVal fn val n f) := by
  induction hd : n - f using Nat.strong_induction_on generalizing f with
  | _ d ih =>
    rw [preorder]
    by_cases h2 : f * 2 + 2 < n
    · rw [dif_pos h2, treeVal_two fn val n f h2, List.map_cons, List.map_append]
      have e1 := ih _ (by omega) (f * 2 + 1) rfl
      have e2 := ih _ (by omega) (f * 2 + 2) rfl
      rw [combine_cons ha _ (combine_append ha e1 e2), ha]
    · rw [dif_neg h2]
      by_cases h1 : f * 2 + 1 < n
      · rw [dif_pos h1, treeVal_one fn val n f h1 h2, List.map_cons,
          combine_cons ha _ (ih _ (by omega) (f * 2 + 1) rfl)]
      · rw [dif_neg h1, treeVal_leaf fn val n f h1]
        rfl

theorem preorder_frontier (n k : ℕ) (hk : k ≤ n) (hn : 0 < n) :
    (preorder n 0).Perm (List.range k ++
      (List.range' k (min n (2 * k + 1) - k)).flatMap (preorder n)) := by
  induction k with
  | zero =>
    have : min n (2 * 0 + 1) - 0 = 1 := by omega
    rw [this]
    simp [List.range'_one]
  | succ k ih =>
    refine (ih (by omega)).trans ?_
    have e1 : min n (2 * k + 1) - k = (min n (2 * k + 1) - (k + 1)) + 1 := by omega
    rw [e1, List.range'_succ, List.flatMap_cons, List.range_succ, List.append_assoc]
    refine List.Perm.append_left _ ?_
    have e2 : List.range' (k + 1) (min n (2 * (k + 1) + 1) - (k + 1)) =
        List.range' (k + 1) (min n (2 * k + 1) - (k + 1)) ++
          List.range' (2 * k + 1) (min n (2 * (k + 1) + 1) - min n (2 * k + 1)) := by
      by_cases h : n ≤ 2 * k + 1
      · have a1 : min n (2 * (k + 1) + 1) = n := by omega
        have a2 : min n (2 * k + 1) = n := by omega
        rw [a1, a2, Nat.sub_self]
        simp
      · have a2 : min n (2 * k + 1) = 2 * k + 1 := by omega
        rw [a2]
        have a3 : k + 1 + (2 * k + 1 - (k + 1)) = 2 * k + 1 := by omega
        have := List.range'_append_1 (s := k + 1) (m := 2 * k + 1 - (k + 1))
          (n := min n (2 * (k + 1) + 1) - (2 * k + 1))
        rw [a3] at this
        rw [this]
        congr 1
        omega
    rw [e2, List.flatMap_append]
    have e3 : preorder n k = k :: (List.range' (2 * k + 1)
        (min n (2 * (k + 1) + 1) - min n (2 * k + 1))).flatMap (preorder n) := by
      rw [preorder]
      by_cases h2 : k * 2 + 2 < n
      · have : min n (2 * (k + 1) + 1) - min n (2 * k + 1) = 2 := by omega
        rw [dif_pos h2, this]
        simp [List.range'_succ, Nat.mul_comm]
      · rw [dif_neg h2]
        by_cases h1 : k * 2 + 1 < n
        · have : min n (2 * (k + 1) + 1) - min n (2 * k + 1) = 1 := by omega
          rw [dif_pos h1, this]
          simp [List.range'_one, Nat.mul_comm]
        · have : min n (2 * (k + 1) + 1) - min n (2 * k + 1) = 0 := by omega
          rw [dif_neg h1, this]
          simp
    rw [e3, List.cons_append, List.singleton_append]
    exact List.Perm.cons _ List.perm_append_comm

/-- **C43**: the tree combines every position exactly once. -/
theorem C43_order (n : ℕ) (hn : 0 < n) : (preorder n 0).Perm (List.range n) := by
  have := preorder_frontier n n (le_refl n) hn
  have e : min n (2 * n + 1) - n = 0 := by omega
  rw [e] at this
  simpa using this

/-- **C43**: in every execution of `reduce`, whatever the schedule, the root returns the combination of
the values of all processes in the order `preorder`, which has every process once; there is no deadlock,
no execution takes more than `3 n` steps, and in the end no message is left. -/
theorem C43_reduce_partial {fn : V → V → V} (ha : ∀ a b c, fn (fn a b) c = fn a (fn b c)) (junk : V) {n : ℕ}
    {root : Int} (h0 : 0 ≤ root) (h1 : root < n) (value : ℕ → V) {prog : ℕ → Proc V}
    (hprog : ∀ i, reduce fn junk n root i (value i) = .ok (prog i)) {c : ℕ} {s : Net V}
    (hs : NetSteps n c (netStart prog) s) :
    (∀ r, s.procs root.toNat = .done r →
        some r = combine fn ((preorder n 0).map fun f => value (realRank n root.toNat f))) ∧
      NoDeadlock n s ∧ c ≤ 3 * n ∧
      ((∀ i < n, ∃ r, s.procs i = .done r) → ∀ i < n, ∀ j < n, s.chan i j = []) := by
  have hr : root.toNat < n := by omega
  by_cases hn : n = 1
  · have hp : ∀ i, prog i = .done (value i) := fun i => by
      have := hprog i
      unfold reduce at this
      rw [if_pos hn] at this
      exact (Outcome.ok.inj this).symm
    have hstart : ∀ s0, NetSteps n c s0 s → s0 = netStart prog → c = 0 ∧ s = s0 := by
      intro s0 hs0 e0
      clear hs
      induction hs0 with
      | refl => exact ⟨rfl, rfl⟩
      | tail c s0 t u hst hstep ih =>
        exfalso
        have e := (ih e0).2.trans e0
        have hd : ∀ i, t.procs i = .done (value i) := fun i => by rw [e]; exact hp i
        cases hstep with
        | send i d v k _ _ h => rw [hd] at h; cases h
        | must _ hm =>
          cases hm with
          | recv i src k v rest _ _ h _ => rw [hd] at h; cases h
          | meet i j v k k' _ _ h _ _ => rw [hd] at h; cases h
    obtain ⟨rfl, rfl⟩ := hstart _ hs rfl
    have e : root.toNat = 0 := by omega
    refine ⟨?_, Or.inl fun i _ => ⟨_, hp i⟩, Nat.zero_le _, fun _ i _ j _ => rfl⟩
    intro r h
    have h' : prog root.toNat = .done r := h
    rw [hp] at h'
    obtain rfl := Proc.done.inj h'
    rw [treeVal_combine ha, treeVal_leaf _ _ _ _ (by omega), real_zero hr]
  · have hp : prog = fun i => reduceTree fn junk n root.toNat i (value i) := by
      funext i
      have := hprog i
      unfold reduce at this
      rw [if_neg hn, if_neg (by omega)] at this
      exact (Outcome.ok.inj this).symm
    rw [hp] at hs
    obtain ⟨c', hc, stage, h⟩ := rInv_steps hr value hs
    have hdone : ∀ f < n, ∀ r, s.procs (realRank n root.toNat f) = .done r →
        stage f = 3 ∧ r = treeRet fn junk (fun f => value (realRank n root.toNat f)) n f := by
      intro f hf r e
      rw [h.proc f hf] at e
      have hle := h.le f hf
      rcases hst : stage f with _ | _ | _ | m
      · rw [hst] at e; cases e
      · rw [hst] at e; cases e
      · rw [hst] at e; cases e
      · rw [hst] at e
        exact ⟨by omega, (Proc.done.inj e).symm⟩
    refine ⟨?_, ?_, ?_, ?_⟩
    · intro r e
      have := (hdone 0 (by omega) r (by rw [real_zero hr]; exact e)).2
      rw [this, treeVal_combine ha, treeRet, if_pos (by omega)]
    · rcases rInv_progress hr h with h3 | h3
      · left
        rw [forall_real hr]
        intro f hf
        rw [h.proc f hf, h3 f hf]
        exact ⟨_, rfl⟩
      · exact Or.inr h3
    · have := h.count
      have := sum_stage_le h.le
      omega
    · intro hall
      rw [forall_real hr] at hall
      have h3 : ∀ f < n, stage f = 3 := fun f hf => by
        obtain ⟨r, e⟩ := hall f hf
        exact (hdone f hf r e).1
      rw [forall_real hr]
      intro f hf
      rw [forall_real hr]
      intro g hg
      rw [h.chan f hf g hg, if_neg]
      rintro ⟨h5, h6, h7, h8⟩
      refine h8 ?_
      rw [h3 g hg]
      unfold Got
      split <;> omega

/-- **C43**: there is an execution to the end, for any number of processes and any root. -/
theorem C43_completes {fn : V → V → V} (ha : ∀ a b c, fn (fn a b) c = fn a (fn b c)) (junk : V) {n : ℕ}
    {root : Int} (h0 : 0 ≤ root) (h1 : root < n) (value : ℕ → V) {prog : ℕ → Proc V}
    (hprog : ∀ i, reduce fn junk n root i (value i) = .ok (prog i)) :
    ∃ c s, NetSteps n c (netStart prog) s ∧ ∀ i < n, ∃ r, s.procs i = .done r :=
  exists_complete fun c s hs =>
    ⟨(C43_reduce_partial ha junk h0 h1 value hprog hs).2.1, (C43_reduce_partial ha junk h0 h1 value hprog hs).2.2.1⟩

theorem combine_perm {fn : V → V → V} (ha : ∀ a b c, fn (fn a b) c = fn a (fn b c))
    (hc : ∀ a b, fn a b = fn b a) {l l' : List V} (h : l.Perm l') : combine fn l = combine fn l' := by
  induction h with
  | nil => rfl
  | cons x h ih =>
    rename_i l1 l2
    cases l1 with
    | nil => rw [List.nil_perm.1 h]
    | cons y l1 =>
      obtain ⟨z, hz⟩ : ∃ z, combine fn (y :: l1) = some z := ⟨_, rfl⟩
      rw [combine_cons ha x hz, combine_cons ha x (ih.symm.trans hz)]
  | swap x y l =>
    show some (l.foldl fn (fn y x)) = some (l.foldl fn (fn x y))
    rw [hc]
  | trans h1 h2 ih1 ih2 => exact ih1.trans ih2

/-- **C43**: for a commutative function this is the combination in the order of the ranks. -/
theorem C43_commutative {fn : V → V → V} (ha : ∀ a b c, fn (fn a b) c = fn a (fn b c))
    (hc : ∀ a b, fn a b = fn b a) (junk : V) {n : ℕ} {root : Int} (h0 : 0 ≤ root) (h1 : root < n)
    (value : ℕ → V) {prog : ℕ → Proc V} (hprog : ∀ i, reduce fn junk n root i (value i) = .ok (prog i))
    {c : ℕ} {s : Net V} (hs : NetSteps n c (netStart prog) s) {r : V}
    (hr : s.procs root.toNat = .done r) : some r = combine fn ((List.range n).map value) := by
  rw [(C43_reduce_partial ha junk h0 h1 value hprog hs).1 r hr]
  have hroot : root.toNat < n := by omega
  have e : ((List.range n).map fun f => realRank n root.toNat f).Perm (List.range n) := by
    refine (List.perm_ext_iff_of_nodup ?_ List.nodup_range).2 fun i => ?_
    · refine List.Nodup.map_on ?_ List.nodup_range
      intro x hx y hy hxy
      exact (real_inj hroot (List.mem_range.1 hx) (List.mem_range.1 hy)).1 hxy
    · rw [List.mem_map, List.mem_range]
      constructor
      · rintro ⟨f, _, rfl⟩
        exact real_lt f hroot
      · exact fun hi => ⟨_, List.mem_range.2 (fake_lt i hroot), real_fake hroot hi⟩
  refine combine_perm ha hc ?_
  have e1 := (C43_order n (by omega)).map fun f => value (realRank n root.toNat f)
  refine e1.trans ?_
  have e2 := e.map value
  rw [List.map_map] at e2
  exact e2

/-- **C43** fails for a function that is not commutative if the order of the ranks is expected: with four
processes joining lists, the root has the last two in the wrong order, in every execution. -/
theorem C43_not_rank_order {prog : ℕ → Proc (List ℕ)}
    (hprog : ∀ i, reduce (· ++ ·) [] 4 0 i [i] = .ok (prog i)) {c : ℕ} {s : Net (List ℕ)}
    (hs : NetSteps 4 c (netStart prog) s) {r : List ℕ} (hr : s.procs 0 = .done r) : r = [0, 1, 3, 2] := by
  have h := (C43_reduce_partial (fun a b c => List.append_assoc a b c) [] (n := 4) (root := 0) (by decide)
    (by decide) (fun i => [i]) hprog hs).1 r hr
  have e : preorder 4 0 = [0, 1, 3, 2] := by
    rw [preorder, dif_pos (by omega), preorder, dif_neg (by omega), dif_pos (by omega), preorder,
      dif_neg (by omega), dif_neg (by omega), preorder, dif_neg (by omega), dif_neg (by omega)]
    rfl
  rw [e] at h
  exact Option.some.inj h

/-- Processes other than the root may return an unset value: one without sons does. -/
theorem C43_leaf_unset (fn : V → V → V) (junk v : V) :
    reduce fn junk 2 0 1 v = .ok (.send 0 v (.done junk)) := rfl

/-- Four processes, adding. -/
example : ∀ i, reduce (· + ·) 0 4 0 i (i * 10) = .ok (reduceTree (· + ·) 0 4 0 i (i * 10)) := fun _ => rfl

end TAT
