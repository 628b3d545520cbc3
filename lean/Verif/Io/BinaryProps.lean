import Verif.Io.BinaryLemmas
import Verif.Core.Props

/-!
# C38: binary dumps
-/

namespace TAT

variable {ν σ α : Type}

/-- A tensor that can be dumped: a proper tensor whose numbers fit into the types of the code; bosonic
edges have no arrow and without symmetry every edge has a dimension. -/
structure Dumpable [TatSym σ] (t : Tensor ν σ α) : Prop where
  wf : WF t
  rank : t.names.length < 2 ^ 64
  edges : ∀ e ∈ t.core.edges, EdgeIo e
  count : t.core.blocks.length < 2 ^ 64
  blocks : ∀ b ∈ t.core.blocks, b.2.length < 2 ^ 64

/-- Without symmetry there is one block. -/
theorem Dumpable.single [TatSym σ] {t : Tensor ν σ α} (h : Dumpable t) (hn : TatSym.isNoSym σ = true) :
    ∃ data, t.core.blocks = [(List.replicate t.names.length 0, data)] := by
  have hch : ∀ edges : List (Edge σ), (∀ e ∈ edges, EdgeIo e) → ∃ c : List (σ × ℕ),
      choices (edges.map Edge.map) = [c] ∧ c.map Prod.fst = List.replicate edges.length 0 := by
    intro edges
    induction edges with
    | nil => exact fun _ => ⟨[], rfl, rfl⟩
    | cons e edges ih =>
      intro he
      obtain ⟨c, h1, h2⟩ := ih fun x hx => he x (List.mem_cons_of_mem _ hx)
      have h3 := he e List.mem_cons_self
      obtain ⟨d, hd⟩ := noSym_map_single hn h3.sorted (h3.noSym hn)
      refine ⟨(0, d) :: c, ?_, ?_⟩
      · rw [List.map_cons, choices, h1, hd]
        rfl
      · rw [List.map_cons, h2]
        rfl
  obtain ⟨c, h1, h2⟩ := hch t.core.edges h.edges
  have hb := h.wf.blocks
  unfold blockShapes at hb
  rw [h1] at hb
  rw [List.filter_cons_of_pos (by
    rw [decide_eq_true_eq]
    exact TatSym.noSym_eq hn _ _)] at hb
  simp only [List.filter_nil, List.map_cons, List.map_nil] at hb
  match hbl : t.core.blocks with
  | [] => rw [hbl] at hb; cases hb
  | [b] =>
    rw [hbl] at hb
    simp only [List.map_cons, List.map_nil, List.cons.injEq, Prod.mk.injEq, and_true] at hb
    refine ⟨b.2, ?_⟩
    rw [h.wf.rank, ← h2, ← hb.1]
  | b :: b' :: l =>
    rw [hbl] at hb
    have := congrArg List.length hb
    simp at this

theorem readsBack_tensor [DecidableEq ν] [TatSym σ] [BinData σ] [LawfulBin σ] [BinData α] [LawfulBin α]
    (io : NameIO ν) (pad : ℕ → Byte) (t : Tensor ν σ α) (h : Dumpable t)
    (hio : ∀ n ∈ t.names, ReadsBack io.put io.get n) (out : List Byte) :
    ∃ d, putTensor io pad out t = .ok (out ++ d) ∧
      ∀ rest, getTensor io (d ++ rest) = .ok (t, rest) := by
  have hne : ¬ (TatSym.isNoSym σ = true ∧ (t.core.edges.any fun e => e.map.isEmpty) = true) := by
    rintro ⟨hn, ha⟩
    obtain ⟨e, he, hm⟩ := List.any_eq_true.1 ha
    exact (h.edges e he).noSym hn (List.isEmpty_iff.1 hm)
  have hrank : t.core.edges.length < 2 ^ 64 := by rw [← h.wf.rank]; exact h.rank
  have hvec : ∀ l : List α, l.length < 2 ^ 64 → ReadsBack (putVector (putData pad)) (getVector getData) l :=
    fun l hl => readsBack_vector hl fun x _ => readsBack_data pad x
  obtain ⟨d1, h1, h2⟩ := readsBack_vector (put := io.put) (get := io.get) h.rank hio out
  obtain ⟨d2, h3, h4⟩ := readsBack_vector (put := putEdge pad) (get := getEdge) hrank
    (fun e he => readsBack_edge pad (h.edges e he)) (putVector io.put out t.names)
  have hcheck : checkValidName t.names t.core.edges.length = .ok () :=
    (checkValidName_ok _ _).2 ⟨h.wf.rank, h.wf.nodup⟩
  cases hn : TatSym.isNoSym σ with
  | true =>
    obtain ⟨data, hd⟩ := h.single hn
    have hlen : data.length < 2 ^ 64 := h.blocks _ (by rw [hd]; exact List.mem_cons_self)
    obtain ⟨d3, h5, h6⟩ := hvec data hlen
      (putVector (putEdge pad) (putVector io.put out t.names) t.core.edges)
    refine ⟨d1 ++ (d2 ++ d3), ?_, fun rest => ?_⟩
    · unfold putTensor
      rw [if_neg hne, if_pos hn, hd]
      dsimp only
      rw [h5, h3, h1, List.append_assoc, List.append_assoc]
    · unfold getTensor
      rw [List.append_assoc, List.append_assoc, h2]
      simp only [Outcome.bind]
      rw [h4]
      simp only [hcheck]
      rw [if_pos hn, h6]
      simp only
      rw [← hd]
  | false =>
    have hkeys : ∀ b ∈ t.core.blocks, b.1.length < 2 ^ 64 := by
      intro b hb
      have : (b.1, b.2.length) ∈ blockShapes (t.core.edges.map Edge.map) := by
        rw [← h.wf.blocks]
        exact List.mem_map.2 ⟨b, hb, rfl⟩
      obtain ⟨c, h7, h8, h9⟩ := mem_blockShapes.1 this
      have hl := h7.length_eq
      rw [List.length_map] at hl
      rw [congrArg Prod.fst h9, List.length_map, ← hl]
      exact hrank
    obtain ⟨d3, h5, h6⟩ := readsBack_map (putKey := putVector (putData pad)) (getKey := getVector getData)
      (putVal := putVector (putData pad)) (getVal := getVector getData) h.wf.blocksSorted h.count
      (fun b hb => readsBack_vector (hkeys b hb) fun x _ => readsBack_data pad x)
      (fun b hb => hvec b.2 (h.blocks b hb))
      (putVector (putEdge pad) (putVector io.put out t.names) t.core.edges)
    refine ⟨d1 ++ (d2 ++ d3), ?_, fun rest => ?_⟩
    · unfold putTensor
      rw [if_neg hne, if_neg (by rw [hn]; exact Bool.false_ne_true)]
      rw [h5, h3, h1, List.append_assoc, List.append_assoc]
    · unfold getTensor
      rw [List.append_assoc, List.append_assoc, h2]
      simp only [Outcome.bind]
      rw [h4]
      simp only [hcheck]
      rw [if_neg (by rw [hn]; exact Bool.false_ne_true), h6]

/-- C38: a dump is appended to the stream; reading it gives the same tensor and leaves what follows it, for
every name, symmetry and scalar type that is written as it is in memory, and for all padding. -/
theorem C38_round_trip [DecidableEq ν] [TatSym σ] [BinData σ] [LawfulBin σ] [BinData α] [LawfulBin α]
    (io : NameIO ν) (pad : ℕ → Byte) (t : Tensor ν σ α) (h : Dumpable t)
    (hio : ∀ n ∈ t.names, ReadsBack io.put io.get n) (out rest : List Byte) :
    ∃ d, putTensor io pad out t = .ok (out ++ d) ∧ getTensor io (d ++ rest) = .ok (t, rest) := by
  obtain ⟨d, h1, h2⟩ := readsBack_tensor io pad t h hio out
  exact ⟨d, h1, h2 rest⟩

/-- Writing tensors one after the other. -/
def putTensors [TatSym σ] [BinData σ] [BinData α] (io : NameIO ν) (pad : ℕ → Byte) :
    List (Tensor ν σ α) → List Byte → Outcome (List Byte)
  | [], out => .ok out
  | t :: ts, out => (putTensor io pad out t).bind (putTensors io pad ts)

/-- Reading tensors one after the other. -/
def getTensors [DecidableEq ν] [TatSym σ] [BinData σ] [BinData α] (io : NameIO ν) :
    ℕ → List Byte → Outcome (List (Tensor ν σ α) × List Byte)
  | 0, inp => .ok ([], inp)
  | n + 1, inp => (getTensor io inp).bind fun r => (getTensors io n r.2).bind fun q =>
      .ok (r.1 :: q.1, q.2)

/-- C38: tensors dumped one after the other are read back in order. -/
theorem C38_sequence [DecidableEq ν] [TatSym σ] [BinData σ] [LawfulBin σ] [BinData α] [LawfulBin α]
    (io : NameIO ν) (pad : ℕ → Byte) (ts : List (Tensor ν σ α)) (h : ∀ t ∈ ts, Dumpable t)
    (hio : ∀ t ∈ ts, ∀ n ∈ t.names, ReadsBack io.put io.get n) (out rest : List Byte) :
    ∃ d, putTensors io pad ts out = .ok (out ++ d) ∧
      getTensors io ts.length (d ++ rest) = .ok (ts, rest) := by
  induction ts generalizing out with
  | nil => exact ⟨[], by rw [List.append_nil]; rfl, rfl⟩
  | cons t ts ih =>
    obtain ⟨d1, h1, h2⟩ := readsBack_tensor io pad t (h t List.mem_cons_self) (hio t List.mem_cons_self) out
    obtain ⟨d2, h3, h4⟩ := ih (fun x hx => h x (List.mem_cons_of_mem _ hx))
      (fun x hx => hio x (List.mem_cons_of_mem _ hx)) (out ++ d1)
    refine ⟨d1 ++ d2, ?_, ?_⟩
    · unfold putTensors
      rw [h1]
      show putTensors io pad ts (out ++ d1) = _
      rw [h3, List.append_assoc]
    · rw [List.length_cons, getTensors, List.append_assoc, h2]
      show (getTensors io ts.length (d2 ++ rest)).bind _ = _
      rw [h4]
      rfl

/-- C38, for the default names. -/
theorem C38_fast_names [TatSym σ] [BinData σ] [LawfulBin σ] [BinData α] [LawfulBin α]
    (pad : ℕ → Byte) (t : Tensor ℕ σ α) (h : Dumpable t) (hid : ∀ n ∈ t.names, n < 2 ^ 31)
    (rest : List Byte) :
    ∃ d, putTensor fastNameIO pad [] t = .ok d ∧ getTensor fastNameIO (d ++ rest) = .ok (t, rest) := by
  obtain ⟨d, h1, h2⟩ := C38_round_trip fastNameIO pad t h
    (fun n hn => readsBack_fastName (by have := hid n hn; omega)) [] rest
  exact ⟨d, h1, h2⟩

/-- C38, for strings as names. -/
theorem C38_string_names [TatSym σ] [BinData σ] [LawfulBin σ] [BinData α] [LawfulBin α]
    (pad : ℕ → Byte) (t : Tensor (List Byte) σ α) (h : Dumpable t)
    (hid : ∀ n ∈ t.names, n.length < 2 ^ 64) (rest : List Byte) :
    ∃ d, putTensor stringNameIO pad [] t = .ok d ∧
      getTensor stringNameIO (d ++ rest) = .ok (t, rest) := by
  obtain ⟨d, h1, h2⟩ := C38_round_trip stringNameIO pad t h
    (fun n hn => readsBack_string (hid n hn)) [] rest
  exact ⟨d, h1, h2⟩

/-- C38, for singular values. -/
theorem C38_singular [TatSym σ] [BinData σ] [LawfulBin σ] [BinData α] [LawfulBin α]
    (pad : ℕ → Byte) (v : List (σ × List α)) (hs : OMap.Sorted v) (hc : v.length < 2 ^ 64)
    (hl : ∀ b ∈ v, b.2.length < 2 ^ 64) (hne : TatSym.isNoSym σ = true → ∃ l, v = [(0, l)])
    (out rest : List Byte) :
    ∃ d, putSingular pad out v = .ok (out ++ d) ∧ getSingular (d ++ rest) = .ok (v, rest) := by
  have hvec : ∀ l : List α, l.length < 2 ^ 64 → ReadsBack (putVector (putData pad)) (getVector getData) l :=
    fun l hl => readsBack_vector hl fun x _ => readsBack_data pad x
  cases hn : TatSym.isNoSym σ with
  | true =>
    obtain ⟨l, rfl⟩ := hne hn
    obtain ⟨d, h1, h2⟩ := hvec l (hl _ List.mem_cons_self) out
    refine ⟨d, ?_, ?_⟩
    · unfold putSingular
      rw [if_pos hn]
      dsimp only
      rw [h1]
    · unfold getSingular
      rw [if_pos hn, h2]
      rfl
  | false =>
    obtain ⟨d, h1, h2⟩ := readsBack_map (putKey := putData pad) (getKey := getData)
      (putVal := putVector (putData pad)) (getVal := getVector getData) hs hc
      (fun b _ => readsBack_data pad b.1) (fun b hb => hvec b.2 (hl b hb)) out
    refine ⟨d, ?_, ?_⟩
    · unfold putSingular
      rw [if_neg (by rw [hn]; exact Bool.false_ne_true), h1]
    · unfold getSingular
      rw [if_neg (by rw [hn]; exact Bool.false_ne_true), h2]

/-- C38, for the table of names: loading a dump gives the same strings to the same numbers. -/
theorem C38_dataset [LinearOrder (List Byte)] (d d' : Dataset (List Byte))
    (hl : d.idToName.length < 2 ^ 64) (hs : ∀ s ∈ d.idToName, s.length < 2 ^ 64) (out rest : List Byte) :
    ∃ x, putDataset out d = out ++ x ∧ ∃ r, getDataset d' (x ++ rest) = .ok (r, rest) ∧
      r.idToName = d.idToName ∧ ∀ id, nameString r id = nameString d id := by
  obtain ⟨x, h1, h2⟩ := readsBack_vector (put := putString) (get := getString) hl
    (fun s h => readsBack_string (hs s h)) out
  refine ⟨x, h1, loadDataset d' d.idToName, ?_, rfl, fun id => rfl⟩
  unfold getDataset
  rw [h2]
  rfl

/-- The name list in the stream is checked: wrong length or repeated names are an error. -/
theorem C38_names_checked [DecidableEq ν] [TatSym σ] [BinData σ] [BinData α] (io : NameIO ν)
    (inp rest rest' : List Byte) (names : List ν) (edges : List (Edge σ))
    (h1 : getVector io.get inp = .ok (names, rest)) (h2 : getVector getEdge rest = .ok (edges, rest'))
    (h : names.length ≠ edges.length ∨ ¬ names.Nodup) :
    (getTensor io inp : Outcome (Tensor ν σ α × List Byte)).isError = true := by
  unfold getTensor
  rw [h1]
  simp only [Outcome.bind]
  rw [h2]
  simp only
  cases hc : checkValidName names edges.length with
  | ok u =>
    have := (checkValidName_ok _ _).1 hc
    rcases h with h | h
    · exact absurd this.1 h
    · exact absurd this.2 h
  | error m => rfl
  | ub =>
    unfold checkValidName at hc
    split at hc
    · cases hc
    · split at hc <;> cases hc

/-- The samples: a tensor with fermions and one without symmetry. -/
def dumpSampleF : Tensor ℕ FermiU1Symmetry (BitVec 64) :=
  ⟨[3, 5], ⟨[⟨true, [(⟨0, 0⟩, 1), (⟨1, 2⟩, 2)]⟩, ⟨false, [(⟨-1, -2⟩, 1), (⟨0, 0⟩, 1)]⟩],
    [([⟨0, 0⟩, ⟨0, 0⟩], [7]), ([⟨1, 2⟩, ⟨-1, -2⟩], [8, 9])]⟩⟩

def dumpSampleN : Tensor ℕ NoSymmetry (BitVec 64) :=
  ⟨[3, 5], ⟨[⟨false, [({}, 2)]⟩, ⟨false, [({}, 1)]⟩], [([{}, {}], [7, 8])]⟩⟩

theorem dumpSampleF_ok : Dumpable dumpSampleF := by
  refine ⟨⟨rfl, by decide, by decide +kernel, by decide +kernel, by decide +kernel⟩, by decide, ?_, by decide,
    by decide⟩
  intro e he
  rcases List.mem_cons.1 he with rfl | he
  · exact ⟨by decide +kernel, by decide, by decide, by decide, by decide⟩
  · rw [List.mem_singleton] at he
    subst he
    exact ⟨by decide +kernel, by decide, by decide, by decide, by decide⟩

theorem dumpSampleN_ok : Dumpable dumpSampleN := by
  refine ⟨⟨rfl, by decide, by decide +kernel, by decide +kernel, by decide +kernel⟩, by decide, ?_, by decide,
    by decide⟩
  intro e he
  rcases List.mem_cons.1 he with rfl | he
  · exact ⟨by decide +kernel, by decide, by decide, by decide, by decide⟩
  · rw [List.mem_singleton] at he
    subst he
    exact ⟨by decide +kernel, by decide, by decide, by decide, by decide⟩

example : Dumpable dumpSampleF := dumpSampleF_ok
example : Dumpable dumpSampleN := dumpSampleN_ok
example : ((putTensor fastNameIO (fun _ => 0) [] dumpSampleF).bind fun d => getTensor fastNameIO d) =
    .ok (dumpSampleF, []) := by decide +kernel
-- a name twice
example : ((putTensor fastNameIO (fun _ => 0) [] { dumpSampleN with names := [3, 3] }).bind fun d =>
    (getTensor fastNameIO d : Outcome (Tensor ℕ NoSymmetry (BitVec 64) × List Byte))).isError = true := by
  decide +kernel

end TAT
