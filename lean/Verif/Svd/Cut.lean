import Verif.Tensor.Model

/-!
# Truncation of singular values

svd.hpp 355-389.  The singular values are elements of any linear order with a zero, so that `nan` is
excluded.
-/

namespace TAT

variable {σ β : Type}

/-- svd.hpp 371-378: one sector in the search for the largest singular value not yet taken. -/
def pickStep [LinearOrder σ] [LinearOrder β] (remain : List (σ × ℕ)) (acc : Outcome (σ × β))
    (e : σ × List β) : Outcome (σ × β) :=
  acc.bind fun m =>
  match OMap.find? remain e.1 with
  | none => .error "map::at"
  | some r =>
    if r = e.2.length then .ok m
    else
      match e.2[r]? with
      | none => .ub
      | some x => if m.2 < x then .ok (e.1, x) else .ok m

/-- svd.hpp 369-379: the sector of the largest singular value not yet taken and this value, at first
`Symmetry()` and 0. -/
def pick [TatSym σ] [LinearOrder β] [Zero β] (rs : List (σ × List β)) (remain : List (σ × ℕ)) :
    Outcome (σ × β) :=
  rs.foldl (pickStep remain) (.ok (0, 0))

/-- svd.hpp 380, 381: `m.at(s) += 1` -/
def bump [LinearOrder σ] (m : List (σ × ℕ)) (s : σ) : Outcome (List (σ × ℕ)) :=
  match OMap.find? m s with
  | none => .error "map::at"
  | some r => .ok (OMap.set m s (r + 1))

/-- svd.hpp 368-382: the loop over the singular values to keep. -/
def cutLoop [TatSym σ] [LinearOrder β] [Zero β] (rs : List (σ × List β)) :
    ℕ → List (σ × ℕ) → List (σ × ℕ) → Outcome (List (σ × ℕ) × List (σ × ℕ))
  | 0, ru, rv => .ok (ru, rv)
  | i + 1, ru, rv =>
    (pick rs ru).bind fun m =>
    (bump ru m.1).bind fun ru =>
    (bump rv (-m.1)).bind fun rv =>
    cutLoop rs i ru rv

/-- `std::vector::resize` -/
def resizeTo [Zero β] (l : List β) (n : ℕ) : List β := l.take n ++ List.replicate (n - l.length) 0

/-- svd.hpp 384-390: one sector of the remaining dimensions. -/
def shorten [LinearOrder σ] [Zero β] (acc : Outcome (List (σ × List β))) (e : σ × ℕ) :
    Outcome (List (σ × List β)) :=
  acc.bind fun rs =>
  if e.2 = 0 then .ok (OMap.erase rs e.1)
  else
    match OMap.find? rs e.1 with
    | none => .error "map::at"
    | some v => .ok (OMap.set rs e.1 (resizeTo v e.2))

/-- svd.hpp 357-359: `total_dimension` -/
def totalDimension (rs : List (σ × List β)) : ℕ := (rs.map fun e => e.2.length).sum

/-- svd.hpp 355-389: from the singular values and the cut to the singular values kept and the
remaining dimensions of the common edge of U and V.  `Size(-1)` is `2 ^ 64 - 1`. -/
def cutPlan [TatSym σ] [LinearOrder β] [Zero β] (rs : List (σ × List β)) (cut : ℕ) :
    Outcome (List (σ × List β) × List (σ × ℕ) × List (σ × ℕ)) :=
  if cut ≠ 2 ^ 64 - 1 ∧ cut < totalDimension rs then
    (cutLoop rs cut (rs.foldl (fun m e => OMap.set m e.1 0) [])
      (rs.foldl (fun m e => OMap.set m (-e.1) 0) [])).bind fun r =>
    (r.1.foldl shorten (.ok rs)).bind fun rs' => .ok (rs', r.1, r.2)
  else .ok (rs, [], [])

end TAT
