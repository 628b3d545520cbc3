import Verif.Io.TextTensor
import Verif.Name.Props

/-!
# C39: text input and output

The library writes keys of blocks in colour, and the colour code `ESC[33m` has a bracket.  Reading a list
skips to the first bracket, which is the wrong one.  So the theorem is for tensors without symmetry, for
tensors whose symmetry is written in parentheses, and for text without colours; for the other symmetries
reading fails whenever there is a block.
-/

namespace TAT

variable {ν σ α τ : Type}

/-! ## Which keys are read back -/

theorem keyReads_plain [TextSym σ] [LawfulText σ] {C : Colours} (hC : ColoursOk C) (hy : '[' ∉ C.yellow)
    (key : List σ) : KeyReads C key := by
  intro rest
  have := scanVector_print (scan := fun s => .ok (TextSym.scan s : σ × TextIn)) (print := TextSym.print) key
    (fun x _ => (LawfulText.scans x).mono fun c hc => notDigit_item hc)
    (fun x _ r e => by
      obtain ⟨a, l, h1, h2⟩ := LawfulText.head x
      rw [h1] at e
      have e' := (List.cons.inj e).1
      subst e'
      rcases h2 with h2 | h2 | h2 <;> exact absurd h2 (by decide))
    (fun e => by
      obtain ⟨x, rfl, hx⟩ := List.map_eq_singleton_iff.1 e
      obtain ⟨a, l, h1, h2⟩ := LawfulText.head x
      rw [h1] at hx
      cases hx) C.yellow (C.origin ++ ':' :: rest) hy
  exact ⟨_, by rw [List.append_assoc _ C.origin]; exact this, ignoreTo_append _ _ _ hC.origin⟩

/-- A symmetry that is written in parentheses. -/
def InParens (σ : Type) [TextSym σ] : Prop :=
  ∀ (x : σ) (pre rest : List Char), '(' ∉ pre →
    TextSym.scan (some (pre ++ TextSym.print x ++ rest)) = (x, some rest)

theorem inParens_fermiZ2 : InParens FermiZ2Symmetry := scan_fermiZ2
theorem inParens_fermiU1 : InParens FermiU1Symmetry := scan_fermiU1

theorem keyReads_console [TextSym σ] (hp : InParens σ) (key : List σ) (hk : key ≠ []) :
    KeyReads console key := by
  intro rest
  refine ⟨some (console.origin ++ ':' :: rest), ?_, ignoreTo_append _ _ _ console_ok.origin⟩
  have hscan : ∀ x : σ, ScansTo (fun s => .ok (TextSym.scan s)) (TextSym.print x) x ItemStop := by
    intro x c rest _
    have := hp x [] (c :: rest) (by simp)
    rw [List.nil_append] at this
    simp only [this]
  obtain ⟨x, l, rfl⟩ := List.exists_cons_of_ne_nil hk
  have e1 : console.yellow ++ printVector TextSym.print (x :: l) ++ console.origin ++ ':' :: rest =
      ['\x1B'] ++ '[' :: ("33m[".toList ++ (joinComma ((x :: l).map TextSym.print) ++
        ']' :: (console.origin ++ ':' :: rest))) := by
    simp [console, printVector]
  rw [e1]
  unfold scanVector
  rw [ignoreTo_append '[' _ _ (by decide)]
  have h3 : peekChar (some ("33m[".toList ++ (joinComma ((x :: l).map TextSym.print) ++
        ']' :: (console.origin ++ ':' :: rest)))) = (some '3', some ("33m[".toList ++
        (joinComma ((x :: l).map TextSym.print) ++ ']' :: (console.origin ++ ':' :: rest)))) := rfl
  rw [h3]
  simp only
  rw [if_neg (by decide)]
  by_cases hl : l = []
  · subst hl
    rw [scanItems]
    have := hp x "33m[".toList (']' :: (console.origin ++ ':' :: rest)) (by decide)
    rw [List.append_assoc] at this
    simp only [List.map_cons, List.map_nil, joinComma, this]
    rfl
  · rw [scanItems, List.map_cons, joinComma_cons _ (by simpa using hl), List.append_assoc, List.cons_append]
    have := hp x "33m[".toList (',' :: (joinComma (l.map TextSym.print) ++ ']' ::
      (console.origin ++ ':' :: rest))) (by decide)
    rw [List.append_assoc] at this
    rw [this]
    simp only [Outcome.bind, getChar]
    rw [if_neg (by decide), scanItems_print l hl (fun x _ => hscan x) _ (by
      have := length_joinComma (l.map (TextSym.print (σ := σ)))
      rw [List.length_map] at this
      simp only [Option.getD_some, List.length_append, List.length_cons]
      omega)]

/-! ## Tensors -/

/-- C39 without symmetry: the text that the library writes is read back. -/
theorem C39_no_symmetry [TatSym σ] [TextSym σ] (hn : TatSym.isNoSym σ = true) (A : TextScalar α)
    (exact : α → Prop) (hA : LawfulScalar A exact) (t : Tensor (List Char) σ α) (h : Printable exact t)
    (rest : List Char) :
    ∃ text, printTensor console A t = .ok text ∧ scanTensor A (some (text ++ rest)) = .ok (t, some rest) := by
  obtain ⟨text, h1, h2⟩ := tensor_read console_ok (fun hf => by rw [hn] at hf; cases hf) hA h
    (fun hf => by rw [hn] at hf; cases hf)
  exact ⟨text, h1, h2 rest⟩

/-- C39 for symmetries written in parentheses: the text that the library writes is read back if the tensor
has an edge. -/
theorem C39_parens [TatSym σ] [TextSym σ] [LawfulText σ] (hp : InParens σ) (A : TextScalar α)
    (exact : α → Prop) (hA : LawfulScalar A exact) (t : Tensor (List Char) σ α) (h : Printable exact t)
    (hr : t.names ≠ []) (rest : List Char) :
    ∃ text, printTensor console A t = .ok text ∧ scanTensor A (some (text ++ rest)) = .ok (t, some rest) := by
  obtain ⟨text, h1, h2⟩ := tensor_read console_ok (fun _ => inferInstance) hA h (fun _ b hb => by
    refine keyReads_console hp b.1 ?_
    intro e
    have hm : (b.1, b.2.length) ∈ blockShapes (t.core.edges.map Edge.map) := by
      rw [← h.wf.blocks]
      exact List.mem_map.2 ⟨b, hb, rfl⟩
    obtain ⟨c, h7, h8, h9⟩ := mem_blockShapes.1 hm
    have hl := h7.length_eq
    have := congrArg Prod.fst h9
    simp only at this
    rw [e] at this
    have hc : c = [] := by simpa using this.symm
    rw [hc, List.length_map, ← h.wf.rank] at hl
    exact hr (List.length_eq_zero_iff.1 hl))
  exact ⟨text, h1, h2 rest⟩

theorem C39_fermiZ2 (A : TextScalar α) (exact : α → Prop) (hA : LawfulScalar A exact)
    (t : Tensor (List Char) FermiZ2Symmetry α) (h : Printable exact t) (hr : t.names ≠ []) (rest : List Char) :
    ∃ text, printTensor console A t = .ok text ∧ scanTensor A (some (text ++ rest)) = .ok (t, some rest) :=
  C39_parens inParens_fermiZ2 A exact hA t h hr rest

theorem C39_fermiU1 (A : TextScalar α) (exact : α → Prop) (hA : LawfulScalar A exact)
    (t : Tensor (List Char) FermiU1Symmetry α) (h : Printable exact t) (hr : t.names ≠ []) (rest : List Char) :
    ∃ text, printTensor console A t = .ok text ∧ scanTensor A (some (text ++ rest)) = .ok (t, some rest) :=
  C39_parens inParens_fermiU1 A exact hA t h hr rest

/-- C39 without colours, for every symmetry. -/
theorem C39_plain [TatSym σ] [TextSym σ] [LawfulText σ] (A : TextScalar α) (exact : α → Prop)
    (hA : LawfulScalar A exact) (t : Tensor (List Char) σ α) (h : Printable exact t) (rest : List Char) :
    ∃ text, printTensor plain A t = .ok text ∧ scanTensor A (some (text ++ rest)) = .ok (t, some rest) := by
  obtain ⟨text, h1, h2⟩ := tensor_read plain_ok (fun _ => inferInstance) hA h
    (fun _ b _ => keyReads_plain plain_ok (by decide) b.1)
  exact ⟨text, h1, h2 rest⟩

/-- C39 for tensors without blocks, for every symmetry. -/
theorem C39_no_blocks [TatSym σ] [TextSym σ] [LawfulText σ] (A : TextScalar α) (exact : α → Prop)
    (hA : LawfulScalar A exact) (t : Tensor (List Char) σ α) (h : Printable exact t)
    (hb : t.core.blocks = []) (rest : List Char) :
    ∃ text, printTensor console A t = .ok text ∧ scanTensor A (some (text ++ rest)) = .ok (t, some rest) := by
  obtain ⟨text, h1, h2⟩ := tensor_read console_ok (fun _ => inferInstance) hA h
    (fun _ b hm => by rw [hb] at hm; cases hm)
  exact ⟨text, h1, h2 rest⟩

/-- C39.  The full statement has no hypothesis `hc`; it is false (`C39_console_fails`,
`C39_rank_zero_fails`).  What is proved: the text that the library writes is read back without symmetry, for
tensors without blocks, and for symmetries in parentheses if there is an edge. -/
theorem C39_round_trip_partial [TatSym σ] [TextSym σ] (hl : TatSym.isNoSym σ = false → LawfulText σ)
    (A : TextScalar α) (exact : α → Prop) (hA : LawfulScalar A exact) (t : Tensor (List Char) σ α)
    (h : Printable exact t)
    (hc : TatSym.isNoSym σ = true ∨ t.core.blocks = [] ∨ (InParens σ ∧ t.names ≠ [])) (rest : List Char) :
    ∃ text, printTensor console A t = .ok text ∧ scanTensor A (some (text ++ rest)) = .ok (t, some rest) := by
  cases hn : TatSym.isNoSym σ with
  | true => exact C39_no_symmetry hn A exact hA t h rest
  | false =>
    haveI := hl hn
    rcases hc with hc | hc | hc
    · rw [hn] at hc; cases hc
    · exact C39_no_blocks A exact hA t h hc rest
    · exact C39_parens hc.1 A exact hA t h hc.2 rest

/-! ## Names -/

theorem nameTexts_intern [LinearOrder (List Char)] {d : Dataset (List Char)} (hd : d.Consistent) (ids : List ℕ)
    {names : List (List Char)} (h : nameTexts d ids = .ok names) : internNames d names = (d, ids) := by
  induction ids generalizing names with
  | nil =>
    cases h
    rfl
  | cons n l ih =>
    unfold nameTexts at h
    cases hn : d.idToName[n]? with
    | none =>
      unfold nameString at h
      rw [hn] at h
      cases h
    | some s =>
      unfold nameString at h
      rw [hn] at h
      simp only [Outcome.bind] at h
      cases hr : nameTexts d l with
      | ok y =>
        rw [hr] at h
        cases h
        have hm : mkName d s = (d, n) := by
          unfold mkName
          rw [(hd.inverse s n).2 hn]
        unfold internNames
        rw [hm, ih hr]
      | error m => rw [hr] at h; cases h
      | ub => rw [hr] at h; cases h

/-- C39 for the default names, whose strings are in the dataset: if the tensor with the strings as names is
read back (by one of the theorems above), the tensor with the numbers is, and the dataset stays as it is. -/
theorem C39_fast_names [LinearOrder (List Char)] [TatSym σ] [TextSym σ] (C : Colours) (A : TextScalar α)
    (d : Dataset (List Char)) (hd : d.Consistent) (t : Tensor ℕ σ α) (names : List (List Char))
    (hn : nameTexts d t.names = .ok names) (rest : List Char)
    (h : ∃ text, printTensor C A ⟨names, t.core⟩ = .ok text ∧
      scanTensor A (some (text ++ rest)) = .ok (⟨names, t.core⟩, some rest)) :
    ∃ text, printTensorFast d C A t = .ok text ∧
      scanTensorFast d A (some (text ++ rest)) = .ok ((d, t), some rest) := by
  obtain ⟨text, h1, h2⟩ := h
  refine ⟨text, ?_, ?_⟩
  · unfold printTensorFast
    rw [hn]
    exact h1
  · unfold scanTensorFast
    rw [h2]
    simp only [Outcome.bind]
    rw [nameTexts_intern hd t.names hn]

/-- C39: a tensor whose only name is empty cannot be read back: `[]` is an empty list. -/
theorem C39_single_empty_name [TatSym σ] [TextSym σ] (hl : TatSym.isNoSym σ = false → LawfulText σ)
    (A : TextScalar α) (t : Tensor (List Char) σ α)
    (h : Dumpable t) (hname : t.names = [[]]) (hb : TatSym.isNoSym σ = false ∨ t.core.blocks ≠ [])
    (rest : List Char) :
    ∃ text, printTensor console A t = .ok text ∧
      (scanTensor A (some (text ++ rest)) : Outcome (Tensor (List Char) σ α × TextIn)).isError = true := by
  have hbl : ∃ bt, printBlocks console A t.core.blocks = .ok bt := by
    unfold printBlocks
    cases hn : TatSym.isNoSym σ with
    | true =>
      rw [if_pos rfl]
      rcases hb with hb | hb
      · rw [hn] at hb; cases hb
      · obtain ⟨b, l, e⟩ := List.exists_cons_of_ne_nil hb
        rw [e]
        exact ⟨_, rfl⟩
    | false => exact ⟨_, rfl⟩
  obtain ⟨bt, hbt⟩ := hbl
  refine ⟨_, by unfold printTensor; rw [printEdges_ok hl _ h.edges, hbt]; rfl, ?_⟩
  have e1 : '{' :: titleText console "names" ++ printVector id t.names ++
    ',' :: titleText console "edges" ++ printVector id (t.core.edges.map edgeText) ++
    ',' :: titleText console "blocks" ++ bt ++ ['}'] ++ rest =
      '{' :: titleText console "names" ++ ("[]".toList ++ (',' :: titleText console "edges" ++
        (printVector edgeText t.core.edges ++ (',' :: titleText console "blocks" ++ (bt ++ '}' :: rest))))) := by
    have : printVector id (t.core.edges.map edgeText) = printVector edgeText t.core.edges := by
      unfold printVector
      rw [List.map_map]
      rfl
    rw [this, hname]
    simp [printVector, joinComma]
  rw [e1]
  unfold scanTensor
  rw [ignoreTo_title console_ok '{' (by decide) "names" (by decide)]
  have hv : scanVector scanName (some ("[]".toList ++ (',' :: titleText console "edges" ++
        (printVector edgeText t.core.edges ++ (',' :: titleText console "blocks" ++ (bt ++ '}' :: rest)))))) =
      .ok ([], some (',' :: titleText console "edges" ++
        (printVector edgeText t.core.edges ++ (',' :: titleText console "blocks" ++ (bt ++ '}' :: rest))))) := by
    rfl
  rw [hv]
  simp only [Outcome.bind]
  rw [ignoreTo_title console_ok ',' (by decide) "edges" (by decide)]
  rw [scan_edges hl t.core.edges h.edges]
  simp only
  have hlen : t.core.edges.length = 1 := by rw [← h.wf.rank, hname]; rfl
  rw [hlen]
  rfl

/-- A name of 256 characters or more overruns the buffer. -/
theorem C39_long_name (name rest : List Char) (h : ∀ c ∈ name, validNameChar c = true)
    (hl : 256 ≤ name.length) : scanName (some (name ++ rest)) = .ub := by
  unfold scanName
  simp only
  rw [List.takeWhile_append_of_pos h, if_pos (by rw [List.length_append]; omega)]

/-! ## Failure -/

/-- Reading keys fails after the colour code of the library. -/
def KeyFails (σ : Type) [TextSym σ] : Prop :=
  ∀ rest : List Char, scanVector (fun s => .ok (TextSym.scan s : σ × TextIn))
    (some (console.yellow ++ '[' :: rest)) = .error outOfMemory

theorem scanVector_yellow [TextSym σ] (rest : List Char) (x : σ × TextIn)
    (h : TextSym.scan (some ('3' :: '3' :: 'm' :: rest)) = x) (h' : getChar x.2 = (none, none)) :
    scanVector (fun s => .ok (TextSym.scan s : σ × TextIn)) (some (console.yellow ++ rest)) =
      .error outOfMemory := by
  have e : console.yellow ++ rest = ['\x1B'] ++ '[' :: ('3' :: '3' :: 'm' :: rest) := rfl
  unfold scanVector
  rw [e, ignoreTo_append '[' _ _ (by decide)]
  rw [show ∀ l, peekChar (some ('3' :: l)) = (some '3', some ('3' :: l)) from fun _ => rfl]
  simp only
  rw [if_neg (by decide), scanItems, h]
  simp only [Outcome.bind, h']

theorem scanVector_yellow_two [TextSym σ] (rest : List Char) (x : σ)
    (h : TextSym.scan (some ('3' :: '3' :: 'm' :: '[' :: rest)) = (x, some ('m' :: '[' :: rest)))
    (h' : (TextSym.scan (some ('[' :: rest)) : σ × TextIn).2 = none) :
    scanVector (fun s => .ok (TextSym.scan s : σ × TextIn)) (some (console.yellow ++ '[' :: rest)) =
      .error outOfMemory := by
  have e : console.yellow ++ '[' :: rest = ['\x1B'] ++ '[' :: ('3' :: '3' :: 'm' :: '[' :: rest) := rfl
  unfold scanVector
  rw [e, ignoreTo_append '[' _ _ (by decide)]
  rw [show ∀ l, peekChar (some ('3' :: l)) = (some '3', some ('3' :: l)) from fun _ => rfl]
  simp only
  rw [if_neg (by decide), scanItems, h]
  simp only [Outcome.bind, getChar, Option.getD_some, List.length_cons]
  rw [if_neg (by decide), scanItems]
  simp only [Outcome.bind, h', getChar]

theorem scanNumber_yellow (rest : List Char) :
    scanNumber ('3' :: '3' :: 'm' :: rest) = (some (false, 33), some ('m' :: rest)) := rfl

theorem scanNumber_bracket (rest : List Char) : scanNumber ('[' :: rest) = (none, none) := rfl

theorem keyFails_Z2 : KeyFails Z2Symmetry := fun rest => by
  refine scanVector_yellow ('[' :: rest) (⟨false⟩, none) ?_ rfl
  have : scanBool (some ('3' :: '3' :: 'm' :: '[' :: rest)) = (false, none) := by
    unfold scanBool scanAs
    simp only [scanNumber_yellow]
    rfl
  simp only [TextSym.scan, this]

theorem scanBits_yellow {w : ℕ} (h : (-(2 ^ (w - 1) : Int) ≤ 33 ∧ (33 : Int) < 2 ^ (w - 1))) (rest : List Char) :
    scanBits w (some ('3' :: '3' :: 'm' :: rest)) = (BitVec.ofInt w 33, some ('m' :: rest)) := by
  unfold scanBits
  refine scanAs_some (scanNumber_yellow rest) ?_
  simp only [Bool.false_eq_true, if_false]
  exact if_pos h

theorem scanBits_bracket (w : ℕ) (rest : List Char) : (scanBits w (some ('[' :: rest))).2 = none := by
  unfold scanBits scanAs
  simp only [scanNumber_bracket]

theorem keyFails_U1 : KeyFails U1Symmetry := fun rest =>
  scanVector_yellow_two rest ⟨BitVec.ofInt 32 33⟩
    (by simp only [TextSym.scan, scanBits_yellow (w := 32) (by decide)])
    (scanBits_bracket 32 rest)

theorem keyFails_fermi : KeyFails FermiSymmetry := fun rest =>
  scanVector_yellow_two rest ⟨BitVec.ofInt 16 33⟩
    (by simp only [TextSym.scan, scanBits_yellow (w := 16) (by decide)])
    (scanBits_bracket 16 rest)

theorem blocks_fail [TatSym σ] [TextSym σ] (hn : TatSym.isNoSym σ = false) (A : TextScalar α) (rank : ℕ)
    (blocks : List (List σ × List α)) (hb : blocks ≠ []) (rest : List Char) (hk : KeyFails σ) :
    ∃ text, printBlocks console A blocks = .ok text ∧
      (scanBlocks A rank (some (text ++ rest)) : Outcome (List (List σ × List α) × TextIn)) =
        .error outOfMemory := by
  have hn' : ¬ TatSym.isNoSym σ = true := by rw [hn]; exact Bool.false_ne_true
  refine ⟨_, by unfold printBlocks; rw [if_neg hn'], ?_⟩
  obtain ⟨b, l, rfl⟩ := List.exists_cons_of_ne_nil hb
  unfold scanBlocks
  rw [if_neg hn']
  have e1 : ∃ tail, printMap (fun k => console.yellow ++ printVector TextSym.print k ++ console.origin)
      (printVector A.print) (b :: l) ++ rest = '{' :: (console.yellow ++ '[' :: tail) := by
    unfold printMap printVector
    by_cases hl : l = []
    · subst hl
      simp only [List.map_cons, List.map_nil, joinComma, printEntry, List.cons_append, List.append_assoc]
      exact ⟨_, rfl⟩
    · rw [List.map_cons, joinComma_cons _ (by simpa using hl)]
      simp only [printEntry, List.cons_append, List.append_assoc]
      exact ⟨_, rfl⟩
  obtain ⟨tail, e1⟩ := e1
  rw [e1]
  unfold scanMap
  rw [ignoreTo_head]
  have h3 : peekChar (some (console.yellow ++ '[' :: tail)) =
      (some '\x1B', some (console.yellow ++ '[' :: tail)) := rfl
  rw [h3]
  simp only
  rw [if_neg (by decide), scanEntries, hk tail]
  rfl

/-- If the blocks cannot be read the tensor cannot. -/
theorem tensor_fail [TatSym σ] [TextSym σ] [LawfulText σ] (A : TextScalar α) (t : Tensor (List Char) σ α)
    (h : Dumpable t) (hv : ∀ n ∈ t.names, ValidName n) (he : t.names ≠ [[]]) (m : String) (rest : List Char)
    (hb : ∃ text, printBlocks console A t.core.blocks = .ok text ∧
      (scanBlocks A t.names.length (some (text ++ '}' :: rest)) : Outcome (List (List σ × List α) × TextIn)) =
        .error m) :
    ∃ text, printTensor console A t = .ok text ∧
      (scanTensor A (some (text ++ rest)) : Outcome (Tensor (List Char) σ α × TextIn)) = .error m := by
  obtain ⟨bt, hb1, hb2⟩ := hb
  have hl : TatSym.isNoSym σ = false → LawfulText σ := fun _ => inferInstance
  have hC := console_ok
  refine ⟨_, by unfold printTensor; rw [printEdges_ok hl _ h.edges, hb1]; rfl, ?_⟩
  have e1 : '{' :: titleText console "names" ++ printVector id t.names ++
    ',' :: titleText console "edges" ++ printVector id (t.core.edges.map edgeText) ++
    ',' :: titleText console "blocks" ++ bt ++ ['}'] ++ rest =
      '{' :: titleText console "names" ++ (printVector id t.names ++ (',' :: titleText console "edges" ++
        (printVector edgeText t.core.edges ++ (',' :: titleText console "blocks" ++ (bt ++ '}' :: rest))))) := by
    have : printVector id (t.core.edges.map edgeText) = printVector edgeText t.core.edges := by
      unfold printVector
      rw [List.map_map]
      rfl
    rw [this]
    simp
  rw [e1]
  unfold scanTensor
  rw [ignoreTo_title hC '{' (by decide) "names" (by decide), scan_names t.names hv he]
  simp only [Outcome.bind]
  rw [ignoreTo_title hC ',' (by decide) "edges" (by decide), scan_edges hl t.core.edges h.edges]
  simp only
  have hcheck : checkValidName t.names t.core.edges.length = .ok () :=
    (checkValidName_ok _ _).2 ⟨h.wf.rank, h.wf.nodup⟩
  rw [hcheck]
  simp only
  rw [ignoreTo_title hC ',' (by decide) "blocks" (by decide), hb2]

/-- The other symmetries: no tensor that has a block can be read back from the text that the library writes
for it; reading ends when memory is used up. -/
theorem C39_console_fails [TatSym σ] [TextSym σ] [LawfulText σ] (hk : KeyFails σ)
    (hn : TatSym.isNoSym σ = false) (A : TextScalar α) (t : Tensor (List Char) σ α) (h : Dumpable t)
    (hv : ∀ n ∈ t.names, ValidName n) (he : t.names ≠ [[]]) (hb : t.core.blocks ≠ []) (rest : List Char) :
    ∃ text, printTensor console A t = .ok text ∧
      (scanTensor A (some (text ++ rest)) : Outcome (Tensor (List Char) σ α × TextIn)) = .error outOfMemory :=
  tensor_fail A t h hv he outOfMemory rest (blocks_fail hn A _ t.core.blocks hb ('}' :: rest) hk)

/-- Symmetries in parentheses without edges: the key is `[]`, and reading looks for a parenthesis further
on. -/
theorem C39_rank_zero_fails [TatSym σ] [TextSym σ] [LawfulText σ] (hn : TatSym.isNoSym σ = false)
    (hp : ∀ l, '(' ∉ l → (TextSym.scan (some l) : σ × TextIn).2 = none) (A : TextScalar α)
    (t : Tensor (List Char) σ α) (h : Dumpable t) (hr : t.names = []) (rest : List Char)
    (hA : ∀ b ∈ t.core.blocks, ∀ x ∈ b.2, '(' ∉ A.print x) (hrest : '(' ∉ rest) :
    ∃ text, printTensor console A t = .ok text ∧
      (scanTensor A (some (text ++ rest)) : Outcome (Tensor (List Char) σ α × TextIn)) = .error outOfMemory := by
  have hn' : ¬ TatSym.isNoSym σ = true := by rw [hn]; exact Bool.false_ne_true
  refine tensor_fail A t h (by rw [hr]; intro n hn; cases hn) (by rw [hr]; exact fun e => by cases e) _ rest ?_
  have hed : t.core.edges = [] := List.length_eq_zero_iff.1 (by rw [← h.wf.rank, hr]; rfl)
  have hbl := h.wf.blocks
  rw [hed] at hbl
  have hb : ∃ x, t.core.blocks = [([], x)] := by
    match hbs : t.core.blocks with
    | [] => rw [hbs] at hbl; simp [blockShapes, choices] at hbl
    | [b] =>
      rw [hbs] at hbl
      simp [blockShapes, choices] at hbl
      exact ⟨b.2, by rw [← hbl.1]⟩
    | b :: b' :: l => rw [hbs] at hbl; simp [blockShapes, choices] at hbl
  obtain ⟨x, hx⟩ := hb
  rw [hx] at hA
  have hAx : ∀ y ∈ x, '(' ∉ A.print y := hA _ List.mem_cons_self
  have hjoin : ∀ l : List (List Char), (∀ y ∈ l, '(' ∉ y) → '(' ∉ joinComma l := by
    intro l
    induction l with
    | nil => exact fun _ => by simp [joinComma]
    | cons y l ih =>
      intro hy
      by_cases hl : l = []
      · subst hl
        exact hy y List.mem_cons_self
      · rw [joinComma_cons _ hl]
        simp only [List.mem_append, List.mem_cons, not_or]
        exact ⟨hy y List.mem_cons_self, by decide, ih fun z hz => hy z (List.mem_cons_of_mem _ hz)⟩
  refine ⟨_, by unfold printBlocks; rw [if_neg hn'], ?_⟩
  unfold scanBlocks
  rw [if_neg hn', hx]
  have e1 : printMap (fun k => console.yellow ++ printVector (TextSym.print (σ := σ)) k ++ console.origin)
      (printVector A.print) [([], x)] ++ '}' :: rest = '{' :: (console.yellow ++ ('[' :: ']' ::
        (console.origin ++ ':' :: '[' :: (joinComma (x.map A.print) ++ ']' :: '}' :: '}' :: rest)))) := by
    simp [printMap, printVector, joinComma, printEntry]
  rw [e1]
  unfold scanMap
  rw [ignoreTo_head]
  have h3 : ∀ l, peekChar (some (console.yellow ++ l)) = (some '\x1B', some (console.yellow ++ l)) :=
    fun _ => rfl
  rw [h3]
  simp only
  have h4 : (TextSym.scan (some ('3' :: '3' :: 'm' :: ('[' :: ']' ::
        (console.origin ++ ':' :: '[' :: (joinComma (x.map A.print) ++ ']' :: '}' :: '}' :: rest))))) :
        σ × TextIn).2 = none := by
    refine hp _ ?_
    have hj := hjoin (x.map A.print) (fun y hy => by
      obtain ⟨z, hz, rfl⟩ := List.mem_map.1 hy
      exact hAx z hz)
    have ho : '(' ∉ console.origin := by decide
    simp only [List.mem_cons, List.mem_append, not_or]
    exact ⟨by decide, by decide, by decide, by decide, by decide, ho, by decide, by decide, hj, by decide,
      by decide, by decide, hrest⟩
  rw [if_neg (by decide), scanEntries, scanVector_yellow _ _ rfl (by rw [h4]; rfl)]
  rfl

theorem ignoreTo_none {c : Char} {l : List Char} (h : c ∉ l) : ignoreTo c (some l) = none := by
  unfold ignoreTo
  have : l.dropWhile (· ≠ c) = [] := by
    induction l with
    | nil => rfl
    | cons a l ih =>
      rw [List.dropWhile_cons_of_pos (by
        simp only [ne_eq, decide_not, Bool.not_eq_true', decide_eq_false_iff_not]
        exact fun e => h (by rw [e]; exact List.mem_cons_self))]
      exact ih fun hm => h (List.mem_cons_of_mem _ hm)
  simp only [this]

theorem noParens_fermiZ2 (l : List Char) (h : '(' ∉ l) :
    (TextSym.scan (some l) : FermiZ2Symmetry × TextIn).2 = none := by
  simp only [TextSym.scan]
  rw [ignoreTo_none h]
  rfl

theorem noParens_fermiU1 (l : List Char) (h : '(' ∉ l) :
    (TextSym.scan (some l) : FermiU1Symmetry × TextIn).2 = none := by
  simp only [TextSym.scan]
  rw [ignoreTo_none h]
  rfl

/-! ## Singular values -/

/-- The text of a key of singular values is read back. -/
def SingularReads [TextSym σ] (C : Colours) (key : σ) : Prop :=
  ∀ rest, ∃ r, (TextSym.scan (some (C.yellow ++ TextSym.print key ++ C.origin ++ ':' :: rest)) : σ × TextIn) =
    (key, r) ∧ ignoreTo ':' r = some rest

theorem singular_read [TatSym σ] [TextSym σ] {C : Colours} (hC : ColoursOk C) {A : TextScalar α}
    {exact : α → Prop} (hA : LawfulScalar A exact) (v : List (σ × List α)) (hs : OMap.Sorted v)
    (hx : ∀ b ∈ v, ∀ x ∈ b.2, exact x) (hne : TatSym.isNoSym σ = true → ∃ l, v = [(0, l)])
    (hh : TatSym.isNoSym σ = false → ∀ b ∈ v, ∃ a l, TextSym.print b.1 = a :: l ∧ a ≠ '}')
    (hk : TatSym.isNoSym σ = false → ∀ b ∈ v, SingularReads C b.1) (rest : List Char) :
    ∃ text, printSingular C A v = .ok text ∧ scanSingular A (some (text ++ rest)) = .ok (v, some rest) := by
  cases hn : TatSym.isNoSym σ with
  | true =>
    obtain ⟨l, rfl⟩ := hne hn
    refine ⟨_, by unfold printSingular; rw [if_pos hn], ?_⟩
    unfold scanSingular
    have := scanVector_scalars hA l (hx _ List.mem_cons_self) [] rest (by simp)
    rw [List.nil_append] at this
    rw [if_pos hn, this]
    rfl
  | false =>
    have hn' : ¬ TatSym.isNoSym σ = true := by rw [hn]; exact Bool.false_ne_true
    refine ⟨_, by unfold printSingular; rw [if_neg hn'], ?_⟩
    unfold scanSingular
    rw [if_neg hn']
    have := scanMap_print (scanKey := fun s => .ok (TextSym.scan s : σ × TextIn))
      (scanVal := scanVector fun s => .ok (A.scan s))
      (printKey := fun k => C.yellow ++ TextSym.print k ++ C.origin) (printVal := printVector A.print)
      v hs (fun b hb rest => by
        obtain ⟨r, h1, h2⟩ := hk hn b hb rest
        exact ⟨r, by rw [h1], h2⟩) (fun b hb c rest _ => by
        have := scanVector_scalars hA b.2 (hx b hb) [] (c :: rest) (by simp)
        rw [List.nil_append] at this
        rw [this]) (fun b hb r => by
          cases hy : C.yellow with
          | nil =>
            obtain ⟨a, l, h1, h2⟩ := hh hn b hb
            rw [h1]
            exact fun e => h2 (List.cons.inj e).1
          | cons a l =>
            intro e
            refine hC.yellow l ?_
            rw [hy]
            simp only [List.cons_append] at e
            rw [(List.cons.inj e).1]) [] rest (by simp)
    rw [List.nil_append] at this
    exact this

theorem head_ne_brace [TextSym σ] [LawfulText σ] (x : σ) : ∃ a l, TextSym.print x = a :: l ∧ a ≠ '}' := by
  obtain ⟨a, l, h1, h2⟩ := LawfulText.head x
  refine ⟨a, l, h1, ?_⟩
  rintro rfl
  rcases h2 with h2 | h2 | h2 <;> exact absurd h2 (by decide)

/-- C39 for singular values without symmetry. -/
theorem C39_singular_no_symmetry [TatSym σ] [TextSym σ] (hn : TatSym.isNoSym σ = true) (A : TextScalar α)
    (exact : α → Prop) (hA : LawfulScalar A exact) (l : List α) (hx : ∀ x ∈ l, exact x) (rest : List Char) :
    ∃ text, printSingular console A [((0 : σ), l)] = .ok text ∧
      scanSingular A (some (text ++ rest)) = .ok ([((0 : σ), l)], some rest) :=
  singular_read console_ok hA _ (by simp [OMap.Sorted]) (fun b hb => by
    rw [List.mem_singleton] at hb
    rw [hb]
    exact hx) (fun _ => ⟨l, rfl⟩) (fun hf => by rw [hn] at hf; cases hf)
    (fun hf => by rw [hn] at hf; cases hf) rest

/-- C39 for singular values with a symmetry in parentheses. -/
theorem C39_singular_parens [TatSym σ] [TextSym σ] [LawfulText σ] (hp : InParens σ)
    (hn : TatSym.isNoSym σ = false) (A : TextScalar α)
    (exact : α → Prop) (hA : LawfulScalar A exact) (v : List (σ × List α)) (hs : OMap.Sorted v)
    (hx : ∀ b ∈ v, ∀ x ∈ b.2, exact x) (rest : List Char) :
    ∃ text, printSingular console A v = .ok text ∧ scanSingular A (some (text ++ rest)) = .ok (v, some rest) :=
  singular_read console_ok hA v hs hx (fun hf => by rw [hn] at hf; cases hf) (fun _ b _ => head_ne_brace b.1)
    (fun _ b _ rest => ⟨_, by
      rw [List.append_assoc _ console.origin, hp b.1 console.yellow _ (by decide)],
      ignoreTo_append _ _ _ console_ok.origin⟩) rest

/-- C39 for singular values without colours. -/
theorem C39_singular_plain [TatSym σ] [TextSym σ] [LawfulText σ] (hn : TatSym.isNoSym σ = false)
    (A : TextScalar α) (exact : α → Prop) (hA : LawfulScalar A exact) (v : List (σ × List α))
    (hs : OMap.Sorted v) (hx : ∀ b ∈ v, ∀ x ∈ b.2, exact x) (rest : List Char) :
    ∃ text, printSingular plain A v = .ok text ∧ scanSingular A (some (text ++ rest)) = .ok (v, some rest) :=
  singular_read plain_ok hA v hs hx (fun hf => by rw [hn] at hf; cases hf) (fun _ b _ => head_ne_brace b.1)
    (fun _ b _ rest => ⟨some (':' :: rest), by
      have := LawfulText.scans b.1 ':' rest (by unfold NotDigit; decide)
      simp only [Outcome.ok.injEq] at this
      simp only [plain, List.nil_append, List.append_nil]
      exact this, ignoreTo_head _ _⟩) rest

/-- Singular values of the other symmetries cannot be read back from what the library writes. -/
theorem C39_singular_fails [TatSym σ] [TextSym σ] (hn : TatSym.isNoSym σ = false)
    (hk : ∀ l, (TextSym.scan (some ('\x1B' :: l)) : σ × TextIn).2 = none) (A : TextScalar α)
    (hA : (A.scan none).2 = none) (v : List (σ × List α)) (hv : v ≠ []) (rest : List Char) :
    ∃ text, printSingular console A v = .ok text ∧
      (scanSingular A (some (text ++ rest)) : Outcome (List (σ × List α) × TextIn)) = .error outOfMemory := by
  have hn' : ¬ TatSym.isNoSym σ = true := by rw [hn]; exact Bool.false_ne_true
  refine ⟨_, by unfold printSingular; rw [if_neg hn'], ?_⟩
  obtain ⟨b, l, rfl⟩ := List.exists_cons_of_ne_nil hv
  have e1 : ∃ tail, printMap (fun k => console.yellow ++ TextSym.print k ++ console.origin)
      (printVector A.print) (b :: l) ++ rest = '{' :: '\x1B' :: tail := by
    unfold printMap
    by_cases hl : l = []
    · subst hl
      exact ⟨_, rfl⟩
    · rw [List.map_cons, joinComma_cons _ (by simpa using hl)]
      exact ⟨_, rfl⟩
  obtain ⟨tail, e1⟩ := e1
  rw [e1]
  unfold scanSingular scanMap
  rw [if_neg hn', ignoreTo_head]
  rw [show ∀ l, peekChar (some ('\x1B' :: l)) = (some '\x1B', some ('\x1B' :: l)) from fun _ => rfl]
  simp only
  rw [if_neg (by decide), scanEntries]
  simp only [Outcome.bind, hk]
  have h5 : scanVector (fun s => .ok (A.scan s)) (ignoreTo ':' none) = .error outOfMemory := by
    unfold scanVector
    rw [show peekChar (ignoreTo '[' (ignoreTo ':' none)) = (none, none) from rfl]
    simp only
    rw [if_neg (fun h => by cases h), scanItems]
    simp only [Outcome.bind, hA, getChar]
  rw [h5]

theorem keyFails_singular_Z2 (l : List Char) : (TextSym.scan (some ('\x1B' :: l)) : Z2Symmetry × TextIn).2 = none :=
  rfl

theorem keyFails_singular_U1 (l : List Char) : (TextSym.scan (some ('\x1B' :: l)) : U1Symmetry × TextIn).2 = none :=
  rfl

theorem keyFails_singular_fermi (l : List Char) :
    (TextSym.scan (some ('\x1B' :: l)) : FermiSymmetry × TextIn).2 = none := rfl

/-! ## Scalars -/

/-- C39 for complex scalars: complex numbers are read back if real numbers are. -/
theorem C39_complex {ρ : Type} (R : TextReal ρ) (exact : ρ → Prop) (h : LawfulReal R exact) :
    LawfulScalar (complexScalar R) fun x => exact x.1 ∧ exact x.2 := h.complex

/-- A whole number from sign and digits. -/
def wholeConv (neg : Bool) (m : ℕ) : Option Int := some (if neg then -(m : Int) else m)

/-- Whole numbers: a `double` that is a whole number of at most six digits is printed like this. -/
def wholeReal : TextReal Int where
  print := printInt
  scan := scanAs wholeConv 0
  zero := 0
  isZero x := x == 0
  isPos x := decide (0 < x)

theorem notDigit_real {c : Char} (h : RealStop c) : NotDigit c := by
  rcases h with rfl | rfl | rfl | rfl | rfl <;> (unfold NotDigit; decide)

theorem printInt_of_pos {i : Int} (h : 0 < i) : printInt i = decimal i.natAbs := by
  unfold printInt
  rw [if_neg (by omega)]

theorem C39_whole_numbers : LawfulReal wholeReal fun _ => True where
  scans x _ c rest hc := by
    show Outcome.ok (scanAs wholeConv 0 (some (printInt x ++ c :: rest))) = _
    rw [scanAs_some (x := x) (scanNumber_int x rest (notDigit_real hc)) (by
      unfold wholeConv
      congr 1
      by_cases h : x < 0
      · rw [decide_eq_true h, if_pos rfl]; omega
      · rw [decide_eq_false h, if_neg Bool.false_ne_true]; omega)]
  plus x _ hp c rest hc := by
    have h0 : 0 < x := of_decide_eq_true hp
    show Outcome.ok (scanAs wholeConv 0 (some ('+' :: printInt x ++ c :: rest))) = _
    rw [printInt_of_pos h0]
    have := scanNumber_sign false x.natAbs rest (notDigit_real hc)
    rw [if_neg Bool.false_ne_true] at this
    rw [scanAs_some (x := x) this (by
      unfold wholeConv
      congr 1
      rw [if_neg Bool.false_ne_true]
      omega)]
  head x _ := by
    obtain ⟨a, l, h1, h2⟩ := printInt_head x
    refine ⟨a, l, h1, ?_⟩
    rintro rfl
    rcases h2 with h2 | h2 <;> exact absurd h2 (by decide)
  minus x _ hz hp := by
    have h1 : x ≠ 0 := by simpa [wholeReal] using hz
    have h2 : ¬ 0 < x := of_decide_eq_false hp
    refine ⟨decimal x.natAbs, ?_⟩
    show printInt x = _
    unfold printInt
    rw [if_pos (by omega)]
  zero c rest hc := by
    show Outcome.ok (scanAs wholeConv 0 (some ('0' :: c :: rest))) = _
    have h := scanNumber_int 0 rest (notDigit_real hc)
    have e : printInt 0 = ['0'] := by
      unfold printInt
      rw [if_neg (by decide)]
      rw [show Int.natAbs 0 = 0 from rfl, decimal, if_pos (by decide)]
      rfl
    rw [e, List.cons_append, List.nil_append] at h
    rw [scanAs_some (x := (0 : Int)) h (by rfl)]
    rfl
  isZero x _ hz := by simpa [wholeReal] using hz

/-! ## Examples -/

def textSampleN : Tensor (List Char) NoSymmetry Int :=
  ⟨["l!".toList, "".toList], ⟨[⟨false, [({}, 2)]⟩, ⟨false, [({}, 1)]⟩], [([{}, {}], [7, -8])]⟩⟩

def textSampleP : Tensor (List Char) FermiU1Symmetry (Int × Int) :=
  ⟨["a".toList, "b".toList], ⟨[⟨true, [(⟨0, 0⟩, 1), (⟨1, 2⟩, 2)]⟩, ⟨false, [(⟨-1, -2⟩, 1), (⟨0, 0⟩, 1)]⟩],
    [([⟨0, 0⟩, ⟨0, 0⟩], [(0, -7)]), ([⟨1, 2⟩, ⟨-1, -2⟩], [(8, 3), (-9, 0)])]⟩⟩

def textSampleU : Tensor (List Char) U1Symmetry Int :=
  ⟨["a".toList, "b".toList], ⟨[⟨false, [(⟨-1⟩, 1), (⟨0⟩, 2)]⟩, ⟨false, [(⟨0⟩, 1), (⟨1⟩, 1)]⟩],
    [([⟨-1⟩, ⟨1⟩], [7]), ([⟨0⟩, ⟨0⟩], [0, -8])]⟩⟩

theorem textSampleN_ok : Printable (fun _ => True) textSampleN := by
  refine ⟨⟨⟨rfl, by decide, by decide +kernel, by decide +kernel, by decide +kernel⟩, by decide, ?_, by decide,
    by decide⟩, ?_, by decide, fun _ _ _ _ => trivial⟩
  · intro e he
    rcases List.mem_cons.1 he with rfl | he
    · exact ⟨by decide +kernel, by decide, by decide, by decide, by decide⟩
    · rw [List.mem_singleton] at he
      subst he
      exact ⟨by decide +kernel, by decide, by decide, by decide, by decide⟩
  · intro n hn
    rcases List.mem_cons.1 hn with rfl | hn
    · exact ⟨by decide, by decide⟩
    · rw [List.mem_singleton] at hn
      subst hn
      exact ⟨by decide, by decide⟩

theorem textSampleP_ok : Printable (fun _ => True ∧ True) textSampleP := by
  refine ⟨⟨⟨rfl, by decide, by decide +kernel, by decide +kernel, by decide +kernel⟩, by decide, ?_, by decide,
    by decide⟩, ?_, by decide, fun _ _ _ _ => ⟨trivial, trivial⟩⟩
  · intro e he
    rcases List.mem_cons.1 he with rfl | he
    · exact ⟨by decide +kernel, by decide, by decide, by decide, by decide⟩
    · rw [List.mem_singleton] at he
      subst he
      exact ⟨by decide +kernel, by decide, by decide, by decide, by decide⟩
  · intro n hn
    rcases List.mem_cons.1 hn with rfl | hn
    · exact ⟨by decide, by decide⟩
    · rw [List.mem_singleton] at hn
      subst hn
      exact ⟨by decide, by decide⟩

theorem textSampleU_ok : Printable (fun _ => True) textSampleU := by
  refine ⟨⟨⟨rfl, by decide, by decide +kernel, by decide +kernel, by decide +kernel⟩, by decide, ?_, by decide,
    by decide⟩, ?_, by decide, fun _ _ _ _ => trivial⟩
  · intro e he
    rcases List.mem_cons.1 he with rfl | he
    · exact ⟨by decide +kernel, by decide, by decide, by decide, by decide⟩
    · rw [List.mem_singleton] at he
      subst he
      exact ⟨by decide +kernel, by decide, by decide, by decide, by decide⟩
  · intro n hn
    rcases List.mem_cons.1 hn with rfl | hn
    · exact ⟨by decide, by decide⟩
    · rw [List.mem_singleton] at hn
      subst hn
      exact ⟨by decide, by decide⟩

example : ∃ text, printTensor console wholeReal.toTextScalar textSampleN = .ok text ∧
    scanTensor wholeReal.toTextScalar (some (text ++ "x".toList)) = .ok (textSampleN, some "x".toList) :=
  C39_no_symmetry rfl _ _ C39_whole_numbers.scalar _ textSampleN_ok _

example : ∃ text, printTensor console (complexScalar wholeReal) textSampleP = .ok text ∧
    scanTensor (complexScalar wholeReal) (some (text ++ "x".toList)) = .ok (textSampleP, some "x".toList) :=
  C39_fermiU1 _ _ (C39_complex _ _ C39_whole_numbers) _ textSampleP_ok (by decide) _

example : ∃ text, printTensor plain wholeReal.toTextScalar textSampleU = .ok text ∧
    scanTensor wholeReal.toTextScalar (some (text ++ "x".toList)) = .ok (textSampleU, some "x".toList) :=
  C39_plain _ _ C39_whole_numbers.scalar _ textSampleU_ok _

/-- C39 is false for U1 symmetry: the sample is not read back. -/
theorem C39_counterexample : ∃ text, printTensor console wholeReal.toTextScalar textSampleU = .ok text ∧
    (scanTensor wholeReal.toTextScalar (some text) : Outcome (Tensor (List Char) U1Symmetry Int × TextIn)) =
      .error outOfMemory := by
  have := C39_console_fails keyFails_U1 rfl wholeReal.toTextScalar textSampleU textSampleU_ok.toDumpable
    textSampleU_ok.names (by decide) (by decide) []
  simpa using this

-- the text the library writes
example : printTensor console wholeReal.toTextScalar textSampleU = .ok
    "{\x1B[32mnames\x1B[0m:[a,b],\x1B[32medges\x1B[0m:[{-1:1,0:2},{0:1,1:1}],\x1B[32mblocks\x1B[0m:{\x1B[33m[-1,1]\x1B[0m:[7],\x1B[33m[0,0]\x1B[0m:[0,-8]}}".toList := by
  decide +kernel

end TAT
