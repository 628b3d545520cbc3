import Verif.Contract.Model

/-!
# Model of `include/TAT/trace.hpp` 30-135 (`Tensor::trace`)

`trace_names` is a set of pairs, here the list of its elements in the order of iteration.
`free_rank` is computed in an unsigned type: if there are more than `rank / 2` pairs, `reserve` throws.
-/

namespace TAT

variable {ν σ α : Type}

/-- The names `InternalName::Trace_1`, `Trace_2`, `Trace_3` (name.hpp 150-152). -/
structure TraceNames (ν : Type) where
  t1 : ν
  t2 : ν
  t3 : ν

/-- trace.hpp 47-58: the partner of a name. -/
def traceFind [DecidableEq ν] (pairs : List (ν × ν)) (n : ν) : Option ν :=
  pairs.findSome? fun c => if c.1 = n then some c.2 else if c.2 = n then some c.1 else none

/-- trace.hpp 45-82: the loop over the edges from the last to the first; `invalid` are the indices
with `valid_index[i] == false`.  Returns `trace_1_names` and `trace_2_names` as pairs. -/
def traceLoop [LinearOrder ν] [TatSym σ] (index : List (ν × ℕ)) (pairs : List (ν × ν)) :
    List ((ν × Edge σ) × ℕ) → List ℕ → Outcome (List (ν × ν))
  | [], _ => .ok []
  | x :: rest, invalid =>
    if x.2 ∈ invalid then traceLoop index pairs rest invalid
    else
      match traceFind pairs x.1.1 with
      | none => traceLoop index pairs rest invalid
      | some m =>
        match OMap.find? index m with
        | none => .error "map::at"
        | some j =>
          (traceLoop index pairs rest (j :: invalid)).bind fun l =>
          .ok ((if TatSym.isFermi σ && x.1.2.arrow then (x.1.1, m) else (m, x.1.1)) :: l)

/-- trace.hpp 102-112: the arguments for merging. -/
def traceArgs [LinearOrder ν] (tn : TraceNames ν) (reversed A B G : List ν) : EdgeArgs ν σ where
  reversed := reversed
  merge := OMap.ofList [(tn.t1, A), (tn.t2, B), (tn.t3, G)]
  newNames := [tn.t1, tn.t2, tn.t3]
  excludeMerge := [tn.t1]

/-- trace.hpp 124-129: one line is added; reading outside the source is undefined. -/
def addLine [Add α] (source : List α) (dest : List α) (offset : ℕ) : Outcome (List α) :=
  if offset + dest.length ≤ source.length then
    .ok (List.zipWith (· + ·) dest (source.drop offset))
  else .ub

/-- trace.hpp 119-131: one symmetry of the merged edge. -/
def traceBlock [Add α] [TatSym σ] (blocks : List (List σ × List α)) (dest : List α) (x : σ × ℕ) :
    Outcome (List α) :=
  match OMap.find? blocks [x.1, -x.1, 0] with
  | none => .error "map::at"
  | some source =>
    (List.range x.2).foldlM (fun d i => addLine source d ((x.2 + 1) * i * dest.length)) dest

/-- trace.hpp 114-131: the sum of the diagonal, a tensor with the edge `Trace_3`. -/
def traceSum [Add α] [Zero α] [LinearOrder ν] [TatSym σ] (junk : List σ → ℕ → α) (tn : TraceNames ν)
    (m : Tensor ν σ α) : Outcome (Tensor ν σ α) :=
  (mkTensor junk [tn.t3] [m.core.edges.getD 2 {}]).bind fun r =>
  match (zero r).core.blocks with
  | [] => .ub
  | b :: rest =>
    ((m.core.edges.getD 0 {}).map.foldlM (traceBlock m.core.blocks) b.2).bind fun data =>
    .ok ⟨r.names, ⟨r.core.edges, (b.1, data) :: rest⟩⟩

/-- trace.hpp 30-135 `trace`; `env1` and `env2` belong to the calls of `edge_operator`, `junk` to the
tensor made in between. -/
def traceTensor [Add α] [Zero α] [Neg α] [LinearOrder ν] [TatSym σ] (env1 env2 : Env σ α)
    (junk : List σ → ℕ → α) (tn : TraceNames ν) (t : Tensor ν σ α) (pairs : List (ν × ν)) :
    Outcome (Tensor ν σ α) :=
  (traceLoop (nameToIndex t.names) pairs (t.names.zip t.core.edges).zipIdx.reverse []).bind fun cs =>
  if t.names.length < 2 * pairs.length then .error "vector::reserve"
  else
  let G := t.names.filter fun n => !decide (n ∈ cs.map Prod.fst) && !decide (n ∈ cs.map Prod.snd)
  (edgeOperator env1 t (traceArgs tn (reversedFree G t) (cs.map Prod.fst) (cs.map Prod.snd) G)).bind
    fun m =>
  (traceSum junk tn m).bind fun r =>
  edgeOperator env2 r {
    split := [(tn.t3, splitParts G t)]
    reversed := reversedFree G t
    newNames := G }

end TAT
