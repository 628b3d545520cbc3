import Verif.EdgeMisc.Model

/-!
# Model of `include/TAT/scalar.hpp`

The four operators differ only in the scalar operation `op`.  `ca` and `cb` are the conversions of
the scalar types of the operands to their common type.  Reading a data vector beyond its end is
undefined behaviour.  Reference counts are modelled in `Verif/Cow` (event `combine`).
-/

namespace TAT

variable {ν σ α β γ : Type}

/-- edge.hpp 158-160 and 241-243 `operator==` for edges: bosonic edges have no arrow. -/
def edgeEq [TatSym σ] (e e' : Edge σ) : Bool :=
  decide (e.map = e'.map) && (!TatSym.isFermi σ || decide (e.arrow = e'.arrow))

/-- Comparison of `std::vector`s of edges. -/
def edgesEq [TatSym σ] : List (Edge σ) → List (Edge σ) → Bool
  | [], [] => true
  | e :: es, e' :: es' => edgeEq e e' && edgesEq es es'
  | _, _ => false

/-- scalar.hpp 52-59: one symmetry of the second edge. -/
def unionStep [TatSym σ] (m : List (σ × ℕ)) (x : σ × ℕ) : Outcome (List (σ × ℕ)) :=
  match OMap.find? m x.1 with
  | none => .ok (OMap.set m x.1 x.2)
  | some d =>
    if d ≠ x.2 then
      .error "Try to do scalar operator on two tensors which edges not compatible"
    else .ok m

/-- scalar.hpp 51-60: one edge of the result. -/
def unionEdge [TatSym σ] (e e' : Edge σ) : Outcome (Edge σ) :=
  (e'.map.foldlM unionStep e.map).bind fun m => .ok ⟨e.arrow, m⟩

/-- scalar.hpp 50-61: the loop over the edges. -/
def unionEdges [TatSym σ] : List (Edge σ) → List (Edge σ) → Outcome (List (Edge σ))
  | [], _ => .ok []
  | _ :: _, [] => .error "vector::at"
  | e :: es, e' :: es' =>
    (unionEdge e e').bind fun f => (unionEdges es es').bind fun fs => .ok (f :: fs)

/-- `for (Size j = 0; j < block.size(); j++) c[j] = f(a[j])`. -/
def mapVec (f : α → γ) (a : List α) (size : ℕ) : Outcome (List γ) :=
  (List.range size).mapM fun j =>
    match a[j]? with
    | some x => .ok (f x)
    | none => .ub

/-- `for (Size j = 0; j < block.size(); j++) c[j] = f(a[j], b[j])`. -/
def zipVec (f : α → β → γ) (a : List α) (b : List β) (size : ℕ) : Outcome (List γ) :=
  (List.range size).mapM fun j =>
    match a[j]?, b[j]? with
    | some x, some y => .ok (f x y)
    | _, _ => .ub

/-- scalar.hpp 68-96: one block of the result. -/
def scalarBlock [TatSym σ] [Zero γ] (ca : α → γ) (cb : β → γ) (op : γ → γ → γ)
    (a : List (List σ × List α)) (b : List (List σ × List β)) (c : List σ × List γ) :
    Outcome (List σ × List γ) :=
  match OMap.find? a c.1, OMap.find? b c.1 with
  | some x, some y => (zipVec (fun u v => op (ca u) (cb v)) x y c.2.length).bind fun d => .ok (c.1, d)
  | some x, none => (mapVec (fun u => op (ca u) 0) x c.2.length).bind fun d => .ok (c.1, d)
  | none, some y => (mapVec (fun v => op 0 (cb v)) y c.2.length).bind fun d => .ok (c.1, d)
  | none, none => .ok (c.1, c.2.map fun _ => 0)

/-- scalar.hpp 40-46, 144-149: the second operand with the edges in the order of the first. -/
def alignedWith [LinearOrder ν] [TatSym σ] [Neg β] [Zero β] (env : Env σ β) (names : List ν)
    (t₂ : Tensor ν σ β) : Outcome (Tensor ν σ β) :=
  if names ≠ t₂.names then transpose env t₂ names else .ok t₂

/-- scalar.hpp 33-99: operator on two tensors. -/
def scalarOp [LinearOrder ν] [TatSym σ] [Neg β] [Zero β] [Zero γ] (env : Env σ β)
    (junk : List σ → ℕ → γ) (ca : α → γ) (cb : β → γ) (op : γ → γ → γ)
    (t₁ : Tensor ν σ α) (t₂ : Tensor ν σ β) : Outcome (Tensor ν σ γ) :=
  if t₁.names.length ≠ t₂.names.length then
    .error "Try to do scalar operator on two different rank tensor"
  else
    (alignedWith env t₁.names t₂).bind fun u =>
    (if edgesEq t₁.core.edges u.core.edges then .ok t₁.core.edges
      else unionEdges t₁.core.edges u.core.edges).bind fun edges =>
    (mkTensor junk t₁.names edges).bind fun r =>
    (r.core.blocks.mapM (scalarBlock ca cb op t₁.core.blocks u.core.blocks)).bind fun blocks =>
    .ok ⟨r.names, ⟨r.core.edges, blocks⟩⟩

/-- scalar.hpp 106-112: one block of the result. -/
def numberBlock [TatSym σ] (f : α → γ) (a : List (List σ × List α)) (c : List σ × List γ) :
    Outcome (List σ × List γ) :=
  match OMap.find? a c.1 with
  | none => .error "map::at"
  | some x => (mapVec f x c.2.length).bind fun d => .ok (c.1, d)

/-- scalar.hpp 100-129: operator on a tensor and a number; `f` is the operation with the number. -/
def scalarNumber [DecidableEq ν] [TatSym σ] (junk : List σ → ℕ → γ) (f : α → γ)
    (t : Tensor ν σ α) : Outcome (Tensor ν σ γ) :=
  (mkTensor junk t.names t.core.edges).bind fun r =>
  (r.core.blocks.mapM (numberBlock f t.core.blocks)).bind fun blocks =>
  .ok ⟨r.names, ⟨r.core.edges, blocks⟩⟩

/-- scalar.hpp 153-159: one block of the first operand. -/
def inplaceBlock [TatSym σ] (op : α → β → α) (b : List (List σ × List β)) (c : List σ × List α) :
    Outcome (List σ × List α) :=
  match OMap.find? b c.1 with
  | none => .error "map::at"
  | some y => (zipVec op c.2 y c.2.length).bind fun d => .ok (c.1, d)

/-- scalar.hpp 137-161: in-place operator on two tensors. -/
def scalarInplace [LinearOrder ν] [TatSym σ] [Neg β] [Zero β] (env : Env σ β)
    (op : α → β → α) (t₁ : Tensor ν σ α) (t₂ : Tensor ν σ β) : Outcome (Tensor ν σ α) :=
  (alignedWith env t₁.names t₂).bind fun u =>
  if !edgesEq t₁.core.edges u.core.edges then
    .error "Scalar Operator In Different Shape Tensor, Maybe You Need Outplace Operator"
  else
    (t₁.core.blocks.mapM (inplaceBlock op u.core.blocks)).bind fun blocks =>
    .ok ⟨t₁.names, ⟨t₁.core.edges, blocks⟩⟩

/-- scalar.hpp 162-177: in-place operator with a number. -/
def scalarInplaceNumber (f : α → α) (t : Tensor ν σ α) : Tensor ν σ α :=
  ⟨t.names, ⟨t.core.edges, t.core.blocks.map fun c => (c.1, c.2.map f)⟩⟩

/-- scalar.hpp 178-189: in-place operator on a table of singular values. -/
def singularInplaceNumber (f : α → α) (s : List (σ × List α)) : List (σ × List α) :=
  s.map fun c => (c.1, c.2.map f)

end TAT
