import Mathlib.Algebra.BigOperators.Group.List.Basic
import Mathlib.Tactic.Ring
import Verif.Basic.Outcome

/-!
# Timers

C46, timer.hpp with `TAT_USE_TIMER`.  Times are integers (the clock counts ticks); the counts of all
timers are functions of the timer.
-/

namespace TAT

variable {ω : Type}

/-- timer.hpp 51-55, 67 the stack of start points and children times, 79-90 the counts of the timers. -/
structure TimerState (ω : Type) where
  stack : List (ℤ × ℤ)
  total : ω → ℤ
  self : ω → ℤ

/-- Construction and destruction of a guard with the clock reading. -/
inductive TimerEvent (ω : Type) where
  | enter (owner : ω) (now : ℤ)
  | leave (owner : ω) (now : ℤ)

/-- timer.hpp 103-105 the constructor of `timer_guard`, 107-114 the destructor.  `top` of an empty
stack is undefined. -/
def timerStep [DecidableEq ω] (s : TimerState ω) : TimerEvent ω → Outcome (TimerState ω)
  | .enter _ now => .ok { s with stack := (now, 0) :: s.stack }
  | .leave owner now =>
    match s.stack with
    | (start, children) :: (start', children') :: rest =>
      let time := now - start
      .ok {
        stack := (start', children' + time) :: rest
        total := fun o => if o = owner then s.total o + time else s.total o
        self := fun o => if o = owner then s.self o + (time - children) else s.self o }
    | _ => .ub

/-- A sequence of events. -/
def timerRun [DecidableEq ω] : List (TimerEvent ω) → TimerState ω → Outcome (TimerState ω)
  | [], s => .ok s
  | e :: es, s => (timerStep s e).bind (timerRun es)

/-- Well nested timed regions, one after the other: `node o a inner b rest` is a region of timer `o`
from `a` to `b` with the regions `inner` inside, followed by `rest`. -/
inductive Regions (ω : Type) where
  | nil
  | node (owner : ω) (start : ℤ) (inner : Regions ω) (stop : ℤ) (rest : Regions ω)

namespace Regions

/-- The events of regions. -/
def events : Regions ω → List (TimerEvent ω)
  | nil => []
  | node o a inner b rest => .enter o a :: (inner.events ++ .leave o b :: rest.events)

/-- Elapsed time of the outermost regions. -/
def outer : Regions ω → ℤ
  | nil => 0
  | node _ a _ b rest => (b - a) + rest.outer

/-- Elapsed times of all regions of a timer, at any depth. -/
def total [DecidableEq ω] (o : ω) : Regions ω → ℤ
  | nil => 0
  | node o' a inner b rest => (if o = o' then b - a else 0) + inner.total o + rest.total o

/-- The same without the time spent in regions directly inside. -/
def self [DecidableEq ω] (o : ω) : Regions ω → ℤ
  | nil => 0
  | node o' a inner b rest => (if o = o' then b - a - inner.outer else 0) + inner.self o + rest.self o

/-- The timers that occur. -/
def owners : Regions ω → List ω
  | nil => []
  | node o _ inner _ rest => o :: (inner.owners ++ rest.owners)

end Regions

theorem timerRun_append [DecidableEq ω] (a b : List (TimerEvent ω)) (s : TimerState ω) :
    timerRun (a ++ b) s = (timerRun a s).bind (timerRun b) := by
  induction a generalizing s with
  | nil => rfl
  | cons e a ih =>
    simp only [List.cons_append, timerRun]
    cases timerStep s e with
    | ok s' => exact ih s'
    | error m => rfl
    | ub => rfl

/-- **C46**: well nested regions add to every timer's total the elapsed times of its regions, to its
self time the same without the time of the regions directly inside, and report the time of the
outermost regions to the region around them; the stack is otherwise as before. -/
theorem C46_accounting [DecidableEq ω] (f : Regions ω) (start children : ℤ) (rest : List (ℤ × ℤ))
    (total self : ω → ℤ) :
    timerRun f.events ⟨(start, children) :: rest, total, self⟩ =
      .ok ⟨(start, children + f.outer) :: rest, fun o => total o + f.total o,
        fun o => self o + f.self o⟩ := by
  induction f generalizing start children rest total self with
  | nil => simp [Regions.events, Regions.outer, Regions.total, Regions.self, timerRun]
  | node o a inner b next ih1 ih2 =>
    simp only [Regions.events, timerRun, timerStep, Outcome.bind]
    rw [timerRun_append, ih1]
    simp only [Outcome.bind, timerRun, timerStep]
    rw [ih2]
    simp only [Outcome.ok.injEq, TimerState.mk.injEq, List.cons.injEq, Prod.mk.injEq, true_and, and_true]
    refine ⟨?_, ?_, ?_⟩
    · simp only [Regions.outer]; ring
    · funext o'
      simp only [Regions.total]
      split <;> ring
    · funext o'
      simp only [Regions.self]
      split <;> ring

/-- **C46**: the self times of all timers add up to the time of the outermost regions. -/
theorem C46_self_sum [DecidableEq ω] (f : Regions ω) {timers : List ω} (hn : timers.Nodup)
    (ho : ∀ o ∈ f.owners, o ∈ timers) : (timers.map fun o => f.self o).sum = f.outer := by
  induction f with
  | nil => simp [Regions.self, Regions.outer]
  | node o a inner b next ih1 ih2 =>
    simp only [Regions.owners, List.mem_cons, List.mem_append] at ho
    simp only [Regions.self, Regions.outer]
    rw [List.sum_map_add, List.sum_map_add, ih1 fun x hx => ho x (Or.inr (Or.inl hx)),
      ih2 fun x hx => ho x (Or.inr (Or.inr hx))]
    have : (timers.map fun x => if x = o then b - a - inner.outer else 0).sum =
        b - a - inner.outer := by
      have hm := ho o (Or.inl rfl)
      clear ho ih1 ih2
      induction timers with
      | nil => simp at hm
      | cons x l ih =>
        rw [List.nodup_cons] at hn
        rw [List.map_cons, List.sum_cons]
        by_cases hx : x = o
        · rw [if_pos hx]
          have : (l.map fun x => if x = o then b - a - inner.outer else 0) = l.map fun _ => 0 :=
            List.map_congr_left fun y hy => if_neg fun c => hn.1 (by rw [hx, ← c]; exact hy)
          rw [this]; simp
        · rw [if_neg hx, zero_add]
          exact ih hn.2 ((List.mem_cons.1 hm).resolve_left fun c => hx c.symm)
    rw [this]; ring

/-- **C46**: in a program that starts with the stack of 53-55, the children time that 56-62 subtracts
at the end is the sum of the self times of all timers, and every timer holds its own total. -/
theorem C46_program [DecidableEq ω] (f : Regions ω) {timers : List ω} (hn : timers.Nodup)
    (ho : ∀ o ∈ f.owners, o ∈ timers) (begin : ℤ) :
    ∃ s, timerRun f.events ⟨[(begin, 0)], fun _ => 0, fun _ => 0⟩ = .ok s ∧
      s.stack = [(begin, (timers.map s.self).sum)] ∧ (∀ o, s.total o = f.total o) := by
  refine ⟨_, C46_accounting f begin 0 [] _ _, ?_, fun o => by simp⟩
  simp only [zero_add, List.cons.injEq, Prod.mk.injEq, true_and, and_true]
  exact (C46_self_sum f hn ho).symm

/-- An svd from 0 to 10 with its kernel from 2 to 7, then a contraction. -/
def sampleRegions : Regions String :=
  .node "svd" 0 (.node "svd_kernel" 2 .nil 7 .nil) 10 (.node "contract" 11 .nil 15 .nil)

example : sampleRegions.outer = 14 ∧ sampleRegions.self "svd" = 5 ∧
    sampleRegions.total "svd" = 10 ∧ sampleRegions.self "svd_kernel" = 5 ∧
    (["svd", "svd_kernel", "contract"].map fun o => sampleRegions.self o).sum = 14 := by
  decide

end TAT
