import Verif.Diag.Props
import Verif.Mps.Cases

/-!
# C87 for two and three sites
-/

namespace TAT.Diag

open Mps

/-- The operations with nothing for the calls of LAPACK, which are not used. -/
def diagEnv0 : NetEnv String ℚ ℚ :=
  netEnv0 ⟨fun _ _ _ => none, fun _ _ _ _ _ => none, fun _ _ _ => none, fun _ _ _ _ _ => none⟩

theorem diagEnv0_ok : DiagEnvOk diagEnv0 where
  gemm := refGemm_ok
  names := (by decide : [",Contract_0", ",Contract_1", ",Contract_2"].Nodup)
  inj := fun _ _ h => h
  abs_nonneg := fun x => abs_nonneg x
  abs_zero := fun _ => abs_eq_zero
  abs_mul := fun x y => abs_mul x y
  abs_c := fun _ h => abs_of_nonneg h

def env0 : Env NoSymmetry ℚ := ⟨⟨8, 32768, 1, 1⟩, fun _ _ => 555, fun _ => true⟩

/-- An operator which sends 00 to 01, 01 to 00 and 10 to 11. -/
def flip0 : List ℚ := [0, 1, 0, 0, 1, 0, 0, 0, 0, 0, 0, 1, 0, 0, 0, 0]

/-- diag.cpp 133-136: the Hamiltonian in `main`. -/
def ham0 : List ℚ := [1/4, 0, 0, 0, 0, -1/4, 2/4, 0, 0, 2/4, -1/4, 0, 0, 0, 0, 1/4]

/-- The numbers 1, 2, 3, … -/
def count0 (k : ℕ) : ℚ × ℕ := ((k : ℚ), k + 1)

def state0 (n : ℕ) : Outcome (Tensor String NoSymmetry ℚ) := newState diagEnv0 count0 1 n

/-- Names and elements. -/
def shown (r : Outcome (Tensor String NoSymmetry ℚ)) : Option (List String × List ℚ) :=
  match r with
  | .ok t => some (t.names, allElems t)
  | _ => none

/-- The number of a configuration of three sites. -/
def number3 (s : Spins 3) : ℚ := 1 + 4 * (s 0).val + 2 * (s 1).val + (s 2).val

example : shown (state0 3) = some (["0", "1", "2"], [1, 2, 3, 4, 5, 6, 7, 8]) := by decide +kernel

/-- No sites. -/
example : shown (state0 0) = some ([], [1]) := by decide +kernel

/-- What is assumed holds, and the result is not empty. -/
example : ∃ t, state0 3 = .ok t ∧ IsState diagEnv0.nm 3 t := by
  obtain ⟨t, h1, h2, -⟩ := C87_new (e := diagEnv0) (fun _ _ h => h) count0 1 3
  exact ⟨t, h1, h2⟩

/-- A link whose sites are not in order.  The edges of the two sites are the last ones of the result. -/
example : shown ((state0 3).bind fun t => (setH diagEnv0 flip0 0).bind fun h => applyLink diagEnv0 h t (2, 0)) =
    some (["1", "2", "0"], [5, 1, 0, 2, 7, 3, 0, 4]) := by decide +kernel

example : applyTo (listed flip0) number3 (2, 0) (fun k => if k = 0 then 1 else 0) = 1 ∧
    applyTo (listed flip0) number3 (2, 0) (fun _ => 0) = 5 := by decide +kernel

/-- One step on one link, with elements which are small. -/
example : shown ((state0 2).bind fun t => (setH diagEnv0 flip0 0).bind fun h =>
    update diagEnv0 env0 (1/3) h [(0, 1)] 1 1 t) = some (["0", "1"], [0, 0, 1, 0]) := by decide +kernel

example : (state0 3).bind (fun t => (setH diagEnv0 flip0 0).bind fun h =>
    energy diagEnv0 env0 h [(0, 2), (1, 2)] t) = .ok (41/34) := by decide +kernel

/-- The energy of a state which is zero. -/
example : (newState diagEnv0 (fun _ : Unit => (0, ())) () 2).bind (fun t => (setH diagEnv0 ham0 0).bind fun h =>
    energy diagEnv0 env0 h [(0, 1)] t) = .error "the norm is zero" := by decide +kernel

/-- A state which is zero after the first link. -/
example : (newState diagEnv0 (fun _ : Unit => (0, ())) () 2).bind (fun t => (setH diagEnv0 ham0 0).bind fun h =>
    update diagEnv0 env0 0 h [(0, 1)] 1 1 t) = .error "division by zero" := by decide +kernel

/-- Without a link nothing is divided. -/
example : shown ((newState diagEnv0 (fun _ : Unit => (0, ())) () 2).bind fun t => (setH diagEnv0 ham0 0).bind fun h =>
    update diagEnv0 env0 0 h [] 1 1 t) = some (["0", "1"], [0, 0, 0, 0]) := by decide +kernel

/-- **C87**: the sites of a link have to be different. -/
theorem C87_same_site : (state0 2).bind (fun t => (setH diagEnv0 flip0 0).bind fun h =>
    applyLink diagEnv0 h t (0, 0)) = .error "Duplicated Contract Name" := by decide +kernel

/-- **C87**: a site of a link which is not in the state is not an error.  An edge of the operator is left over, and
the result has an edge for a site which was not there. -/
theorem C87_no_site : ∃ t, (state0 1).bind (fun t => (setH diagEnv0 flip0 0).bind fun h =>
    applyLink diagEnv0 h t (0, 1)) = .ok t ∧ t.names = ["I1", "0", "1"] ∧ ∀ n, ¬ IsState diagEnv0.nm n t := by
  have h : ((state0 1).bind (fun t => (setH diagEnv0 flip0 0).bind fun h =>
      applyLink diagEnv0 h t (0, 1))).bind (fun t => .ok t.names) = .ok ["I1", "0", "1"] := by decide +kernel
  cases hr : (state0 1).bind (fun t => (setH diagEnv0 flip0 0).bind fun h => applyLink diagEnv0 h t (0, 1)) with
  | ok t =>
    rw [hr] at h
    have h : Outcome.ok t.names = Outcome.ok ["I1", "0", "1"] := h
    injection h with h
    refine ⟨t, rfl, h, fun n hs => ?_⟩
    obtain ⟨k, hk⟩ := hs.only "I1" (leg_ne_none.2 (by rw [h]; decide))
    exact site_ne k.val (s := "I1") ⟨'I', by decide, by decide⟩ hk.symm
  | error m =>
    rw [hr] at h
    exact absurd h (by simp [Outcome.bind])
  | ub =>
    rw [hr] at h
    exact absurd h (by simp [Outcome.bind])

end TAT.Diag
