import Mathlib.Data.List.Basic

/-!
# The default memory resource

C45, pmr_resource.hpp 171-180 and 249-260.  Resources are identified by a number (their address).
-/

namespace TAT

/-- What happens to the default resource in an execution.  A function call is its body; a `scope`
lasts to the end of its block, here `body`. -/
inductive ScopeProg where
  | skip
  /-- construction of an allocator (189), which takes the current default resource -/
  | use
  | throw
  | seq (first second : ScopeProg)
  | scope (resource : ℕ) (body : ScopeProg)
  | tryCatch (body handler : ScopeProg)

/-- The global variable (172), the resources that were taken, with the newest first, and whether an
exception is on its way. -/
structure ScopeState where
  default : ℕ
  used : List ℕ
  thrown : Bool
deriving DecidableEq

/-- pmr_resource.hpp 176-180 `set_default_resource`: the previous resource and the new state -/
def setDefault (input : ℕ) (s : ScopeState) : ℕ × ScopeState := (s.default, { s with default := input })

/-- Execution; 256 the constructor of `scope_resource`, 257-259 the destructor, which also runs when an
exception leaves the block. -/
def ScopeProg.exec : ScopeProg → ScopeState → ScopeState
  | skip, s => s
  | use, s => { s with used := s.default :: s.used }
  | throw, s => { s with thrown := true }
  | seq a b, s =>
    let s := a.exec s
    if s.thrown then s else b.exec s
  | scope r body, s =>
    let (upstream, s) := setDefault r s
    let s := body.exec s
    (setDefault upstream s).2
  | tryCatch body handler, s =>
    let s := body.exec s
    if s.thrown then handler.exec { s with thrown := false } else s

/-- Specification: the resources taken, oldest first, and whether an exception leaves, read off the
program text: an allocator takes the resource of the innermost scope around it. -/
def ScopeProg.meaning (around : ℕ) : ScopeProg → List ℕ × Bool
  | skip => ([], false)
  | use => ([around], false)
  | throw => ([], true)
  | seq a b =>
    let m := a.meaning around
    if m.2 then m else (m.1 ++ (b.meaning around).1, (b.meaning around).2)
  | scope r body => body.meaning r
  | tryCatch body handler =>
    let m := body.meaning around
    if m.2 then (m.1 ++ (handler.meaning around).1, (handler.meaning around).2) else m

/-- **C45**: every execution ends, normally or by an exception, with the default resource it started
with, and every allocator constructed on the way took the resource of the innermost scope around it. -/
theorem C45_restored (p : ScopeProg) (d : ℕ) (used : List ℕ) :
    p.exec ⟨d, used, false⟩ = ⟨d, (p.meaning d).1.reverse ++ used, (p.meaning d).2⟩ := by
  induction p generalizing d used with
  | skip => simp [ScopeProg.exec, ScopeProg.meaning]
  | use => simp [ScopeProg.exec, ScopeProg.meaning]
  | throw => simp [ScopeProg.exec, ScopeProg.meaning]
  | seq a b iha ihb =>
    simp only [ScopeProg.exec, ScopeProg.meaning]
    rw [iha]
    by_cases h : (a.meaning d).2 = true
    · simp [h]
    · simp only [Bool.not_eq_true] at h
      simp [h, ihb]
  | scope r body ih =>
    simp only [ScopeProg.exec, ScopeProg.meaning, setDefault]
    rw [ih]
  | tryCatch a b iha ihb =>
    simp only [ScopeProg.exec, ScopeProg.meaning]
    rw [iha]
    by_cases h : (a.meaning d).2 = true
    · simp [h, ihb]
    · simp only [Bool.not_eq_true] at h
      simp [h]

/-- An svd (resource 1) that calls a contraction (resource 2), which throws; the caller catches. -/
def sampleScopes : ScopeProg :=
  .seq .use (.seq (.tryCatch (.scope 1 (.seq .use (.seq (.scope 2 (.seq .use .throw)) .use))) .use) .use)

example : sampleScopes.exec ⟨0, [], false⟩ = ⟨0, [0, 0, 2, 1, 0], false⟩ ∧
    sampleScopes.meaning 0 = ([0, 1, 2, 0, 0], false) := by decide

end TAT
