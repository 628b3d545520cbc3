import Verif.Contract.Model
import Verif.EdgeOp.Sign
import Mathlib.Algebra.BigOperators.Group.List.Basic
import Mathlib.Algebra.Ring.Defs

/-!
# Specification vocabulary for contraction
-/

namespace TAT

variable {ν σ α β : Type}

/-! ## the matrix routine -/

/-- Place of the element `(i, l)` of `op(A)` in memory: column-major, transposed if `t`. -/
def matIdx (t : Bool) (ld i l : ℕ) : ℕ := if t then l + i * ld else i + l * ld

/-- The arguments are legal: leading dimensions are not too small and every element lies in the
memory given. -/
structure GemmLegal (x : GemmArgs α) : Prop where
  lda : (if x.ta then x.k else x.m) ≤ x.lda
  ldb : (if x.tb then x.n else x.k) ≤ x.ldb
  ldc : x.m ≤ x.ldc
  a : ∀ i < x.m, ∀ l < x.k, matIdx x.ta x.lda i l < x.a.length
  b : ∀ l < x.k, ∀ j < x.n, matIdx x.tb x.ldb l j < x.b.length
  c : ∀ i < x.m, ∀ j < x.n, i + j * x.ldc < x.c.length

/-- What is assumed of the matrix routine, for `beta = 0` and positive sizes: `C` becomes
`alpha * op(A) * op(B)`, everything else in memory stays. -/
def GemmOk [CommRing α] (g : Gemm α) : Prop :=
  ∀ x : GemmArgs α, x.beta = 0 → 0 < x.m → 0 < x.n → 0 < x.k → GemmLegal x →
    ∃ c, g x = .ok c ∧ c.length = x.c.length ∧
      (∀ i < x.m, ∀ j < x.n, c.getD (i + j * x.ldc) 0 =
        x.alpha * ((List.range x.k).map fun l =>
          x.a.getD (matIdx x.ta x.lda i l) 0 * x.b.getD (matIdx x.tb x.ldb l j) 0).sum) ∧
      (∀ q, (∀ i < x.m, ∀ j < x.n, q ≠ i + j * x.ldc) → c[q]? = x.c[q]?)

/-- A matrix routine doing what is assumed, so the assumption can be met. -/
def refGemm [CommRing α] : Gemm α := fun x =>
  .ok (x.c.zipIdx.map fun y =>
    if y.2 % x.ldc < x.m ∧ y.2 / x.ldc < x.n then
      x.alpha * ((List.range x.k).map fun l =>
        x.a.getD (matIdx x.ta x.lda (y.2 % x.ldc) l) 0 *
          x.b.getD (matIdx x.tb x.ldb l (y.2 / x.ldc)) 0).sum
    else y.1)

theorem refGemm_ok [CommRing α] : GemmOk (refGemm : Gemm α) := by
  intro x _ hm _ _ hl
  refine ⟨_, rfl, by simp, fun i hi j hj => ?_, fun q hq => ?_⟩
  · have hc := hl.c i hi j hj
    have hlt : i < x.ldc := lt_of_lt_of_le hi hl.ldc
    rw [List.getD_eq_getElem?_getD, List.getElem?_map, List.getElem?_zipIdx,
      List.getElem?_eq_getElem hc]
    have h1 : (i + j * x.ldc) % x.ldc = i := by
      rw [Nat.add_mul_mod_self_right, Nat.mod_eq_of_lt hlt]
    have h2 : (i + j * x.ldc) / x.ldc = j := by
      rw [Nat.add_mul_div_right _ _ (by omega), Nat.div_eq_of_lt hlt, Nat.zero_add]
    simp only [Option.map_some, Option.getD_some, Nat.zero_add, h1, h2]
    rw [if_pos ⟨hi, hj⟩]
  · rw [List.getElem?_map, List.getElem?_zipIdx]
    cases hq' : x.c[q]? with
    | none => rfl
    | some v =>
      simp only [Option.map_some, Nat.zero_add, Option.some.injEq]
      rw [if_neg]
      rintro ⟨h1, h2⟩
      refine hq _ h1 _ h2 ?_
      rw [Nat.mul_comm]
      exact (Nat.mod_add_div q x.ldc).symm

/-! ## sums over positions -/

/-- All positions of an edge. -/
def edgePositions (m : List (σ × ℕ)) : List (σ × ℕ) :=
  m.flatMap fun e => (List.range e.2).map fun i => (e.1, i)

/-- Sum over all positions of the edges `names`: `F` gets the position with these edges set. -/
def sumOver [DecidableEq ν] [Add α] [Zero α] (E : ν → List β) (F : (ν → β) → α) :
    List ν → (ν → β) → α
  | [], w => F w
  | n :: ns, w => ((E n).map fun x => sumOver E F ns (Function.update w n x)).sum

/-- The element at a position, zero where there is none. -/
def amp [Zero α] [LinearOrder ν] [TatSym σ] (t : Tensor ν σ α) (p : ν → σ × ℕ) : α :=
  if (∀ x ∈ t.names.zip t.core.edges, (p x.1).2 < dimOf x.2 (p x.1).1) ∧ (keyOf t.names p).sum = 0
  then (elem t p).getD 0 else 0

/-- The position in the second tensor belonging to the position `w` in the first: a contracted edge
has the opposite symmetry and the same index as its partner, the others are as in `p`. -/
def partner [DecidableEq ν] [Neg σ] (cs : List (ν × ν)) (p w : ν → σ × ℕ) (n : ν) : σ × ℕ :=
  match cs.find? fun c => decide (c.2 = n) with
  | some c => (-(w c.1).1, (w c.1).2)
  | none => p n

/-- The edges of a tensor that are not contracted. -/
def others [DecidableEq ν] (names contracted : List ν) : List ν :=
  names.filter fun n => decide (n ∉ contracted)

/-- The fermionic sign of a contraction: bring the contracted edges of the first tensor to its end in
reverse order, those of the second tensor to its front in order, so that partners meet one after the
other; every odd pair counts `-1` if the edge of the first tensor points in. -/
def contractSign [LinearOrder ν] [TatSym σ] (t1 t2 : Tensor ν σ α) (cs : List (ν × ν))
    (w1 w2 : ν → σ × ℕ) : ℤ :=
  if TatSym.isFermi σ then
    exchangeOf (oddAt w1) t1.names
      (others t1.names (cs.map Prod.fst) ++ (cs.map Prod.fst).reverse) *
    exchangeOf (oddAt w2) t2.names
      (cs.map Prod.snd ++ others t2.names (cs.map Prod.snd)) *
    (cs.map fun c => if (edgeOf t1 c.1).arrow = false ∧ oddAt w1 c.1 = true then -1 else 1).prod
  else 1

/-- The contracted element. -/
def contracted [CommRing α] [LinearOrder ν] [TatSym σ] (t1 t2 : Tensor ν σ α) (cs : List (ν × ν))
    (p : ν → σ × ℕ) : α :=
  sumOver (fun n => edgePositions (mapOf t1 n))
    (fun w => contractSign t1 t2 cs w (partner cs p w) • (amp t1 w * amp t2 (partner cs p w)))
    (cs.map Prod.fst) p

end TAT
