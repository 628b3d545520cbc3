import Verif.Contract.Model

/-!
# What `svd` and `qr` share

svd.hpp 253-428 and qr.hpp 314-447 have the same shape: merge the edges of both factors, make two
matrices with a new common edge, factorise every block, split the edges again.
-/

namespace TAT

variable {ν σ α γ : Type}

/-- svd.hpp 315-322, qr.hpp 389-394: merge to a matrix. All edges pointing out are reversed, without
sign. -/
def mergeArgsOf [LinearOrder ν] [TatSym σ] (t : Tensor ν σ α) (merge : List (ν × List ν))
    (newNames : List ν) : EdgeArgs ν σ where
  reversed := reversedFree t.names t
  merge := OMap.ofList merge
  newNames := newNames

/-- svd.hpp 328-334, qr.hpp 398-404: one block. -/
def commonStep [TatSym σ] (e0 e1 : Edge σ) (acc : List (σ × ℕ) × List (σ × ℕ))
    (b : List σ × List α) : Outcome (List (σ × ℕ) × List (σ × ℕ)) :=
  match b.1 with
  | [s0, s1] =>
    match OMap.find? e0.map s0, OMap.find? e1.map s1 with
    | some m, some n =>
      let k := if m > n then n else m
      .ok (OMap.set acc.1 s1 k, OMap.set acc.2 s0 k)
    | _, _ => .error "map::at"
  | _ => .ub

/-- svd.hpp 326-334, qr.hpp 396-404: the maps of the common edges. -/
def commonMaps [TatSym σ] (e0 e1 : Edge σ) (blocks : List (List σ × List α)) :
    Outcome (List (σ × ℕ) × List (σ × ℕ)) :=
  blocks.foldlM (commonStep e0 e1) ([], [])

/-- What one block is factorised to: the two matrices and what stands between them. -/
abbrev Kernel (α γ : Type) := ℕ → ℕ → List α → List α → List α → Outcome (List α × γ × List α)

/-- svd.hpp 342-356, qr.hpp 411-421: one block.  The arguments of the kernel are the sizes, the data
and the previous contents of the two destinations; `γ` is what it returns besides (the singular
values).  Without elements the kernel is not called and `γ` is `none`. -/
def factorStep [TatSym σ] (kernel : Kernel α γ) (none : γ) (e0 e1 : Edge σ)
    (st : List (List σ × List α) × List (List σ × List α) × List (List σ × γ))
    (b : List σ × List α) :
    Outcome (List (List σ × List α) × List (List σ × List α) × List (List σ × γ)) :=
  match OMap.find? st.1 b.1, OMap.find? st.2.1 b.1 with
  | some d1, some d2 =>
    match b.1 with
    | [s0, s1] =>
      match OMap.find? e0.map s0, OMap.find? e1.map s1 with
      | some m, some n =>
        if m * n ≠ 0 then
          (kernel m n b.2 d1 d2).bind fun r =>
          .ok (OMap.set st.1 b.1 r.1, OMap.set st.2.1 b.1 r.2.2, st.2.2 ++ [(b.1, r.2.1)])
        else .ok (st.1, st.2.1, st.2.2 ++ [(b.1, none)])
      | _, _ => .error "map::at"
    | _ => .ub
  | _, _ => .error "map::at"

/-- The surroundings of one call: for the merge, for the two matrices and for the two splits. -/
structure DecompEnv (σ α : Type) where
  merge : Env σ α
  junk1 : List σ → ℕ → α
  junk2 : List σ → ℕ → α
  split1 : Env σ α
  split2 : Env σ α

/-- svd.hpp 323-356, qr.hpp 395-421: from the merged tensor to its two factors.  `c1` and `c2` are
the names of the common edge in the first and the second factor. -/
def factorise [LinearOrder ν] [TatSym σ] (kernel : Kernel α γ) (none : γ)
    (junk1 junk2 : List σ → ℕ → α) (x1 x2 c1 c2 : ν) (merged : Tensor ν σ α) :
    Outcome (Tensor ν σ α × Tensor ν σ α × List (List σ × γ)) :=
  match merged.core.edges with
  | [e0, e1] =>
    (commonMaps e0 e1 merged.core.blocks).bind fun maps =>
    (mkTensor junk1 [x1, c1] [e0, ⟨false, maps.1⟩]).bind fun t1 =>
    (mkTensor junk2 [c2, x2] [⟨false, maps.2⟩, e1]).bind fun t2 =>
    (merged.core.blocks.foldlM (factorStep kernel none (t1.core.edges.getD 0 {})
      (t2.core.edges.getD 1 {})) (t1.core.blocks, t2.core.blocks, [])).bind fun st =>
    .ok (⟨t1.names, ⟨t1.core.edges, st.1⟩⟩, ⟨t2.names, ⟨t2.core.edges, st.2.1⟩⟩, st.2.2)
  | _ => .ub

/-- svd.hpp 401-420, qr.hpp 431-446: the arguments for splitting a factor. -/
def unfoldArgs (x : ν) (parts : List (ν × List (σ × ℕ))) (reversed newNames excludeReverse : List ν)
    (cut : List (ν × List (σ × ℕ))) : EdgeArgs ν σ where
  split := [(x, parts)]
  reversed := reversed
  newNames := newNames
  excludeReverse := excludeReverse
  cut := cut

end TAT
