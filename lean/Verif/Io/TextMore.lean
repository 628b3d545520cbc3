import Verif.Io.TextProps
import Mathlib.Data.List.Lex
import Mathlib.Data.String.Basic

/-!
# Property C39: names read by another program, and the text of a shape
-/

namespace TAT

variable {σ α : Type}

/-! ## Names -/

/-- C39: a `FastName` that is read has the string that was in the text, and the names made before keep
theirs.  (io.hpp 134-139.) -/
theorem C39_fast_name [LinearOrder (List Char)] (d : Dataset (List Char)) (hd : d.Consistent)
    (name : List Char) (h : ValidName name) (c : Char) (hc : validNameChar c = false) (rest : List Char) :
    ∃ d' id, scanFastName d (some (name ++ c :: rest)) = .ok ((d', id), some (c :: rest)) ∧
      nameString d' id = .ok name ∧ d'.Consistent ∧
      ∀ i s, nameString d i = .ok s → nameString d' i = .ok s := by
  refine ⟨(mkName d name).1, (mkName d name).2, ?_, ?_, mkName_consistent hd name, ?_⟩
  · unfold scanFastName
    rw [scansTo_name h c rest hc]
    rfl
  · unfold nameString
    rw [mkName_string hd name]
  · intro i s hs
    unfold nameString at hs ⊢
    cases hi : d.idToName[i]? with
    | none => rw [hi] at hs; cases hs
    | some x =>
      rw [hi] at hs
      cases hs
      rw [prefix_getElem? (mkName_prefix d name) hi]

theorem internNames_spec [LinearOrder (List Char)] (names : List (List Char)) (d : Dataset (List Char))
    (hd : d.Consistent) :
    (internNames d names).1.Consistent ∧ d.idToName <+: (internNames d names).1.idToName ∧
      nameTexts (internNames d names).1 (internNames d names).2 = .ok names := by
  induction names generalizing d with
  | nil => exact ⟨hd, List.prefix_refl _, rfl⟩
  | cons s l ih =>
    obtain ⟨h1, h2, h3⟩ := ih (mkName d s).1 (mkName_consistent hd s)
    unfold internNames
    refine ⟨h1, (mkName_prefix d s).trans h2, ?_⟩
    unfold nameTexts nameString
    simp only
    rw [prefix_getElem? h2 (mkName_string hd s)]
    simp only [Outcome.bind]
    rw [h3]

/-- C39 for another program: a tensor written with one dataset of names and read with another one, which
need not know the names, has the same names as strings, the same edges and the same elements; the names
the reading program had keep their strings. -/
theorem C39_other_dataset [LinearOrder (List Char)] [TatSym σ] [TextSym σ] (C : Colours) (A : TextScalar α)
    (d : Dataset (List Char)) (t : Tensor ℕ σ α) (names : List (List Char))
    (hn : nameTexts d t.names = .ok names) (rest : List Char)
    (h : ∃ text, printTensor C A ⟨names, t.core⟩ = .ok text ∧
      scanTensor A (some (text ++ rest)) = .ok (⟨names, t.core⟩, some rest))
    (d' : Dataset (List Char)) (hd' : d'.Consistent) :
    ∃ text d'' ids, printTensorFast d C A t = .ok text ∧
      scanTensorFast d' A (some (text ++ rest)) = .ok ((d'', ⟨ids, t.core⟩), some rest) ∧
      nameTexts d'' ids = .ok names ∧ d''.Consistent ∧
      ∀ i s, nameString d' i = .ok s → nameString d'' i = .ok s := by
  obtain ⟨text, h1, h2⟩ := h
  obtain ⟨i1, i2, i3⟩ := internNames_spec names d' hd'
  refine ⟨text, (internNames d' names).1, (internNames d' names).2, ?_, ?_, i3, i1, ?_⟩
  · unfold printTensorFast
    rw [hn]
    exact h1
  · unfold scanTensorFast
    rw [h2]
    rfl
  · intro i s hs
    unfold nameString at hs ⊢
    cases hi : d'.idToName[i]? with
    | none => rw [hi] at hs; cases hs
    | some x =>
      rw [hi] at hs
      cases hs
      rw [prefix_getElem? i2 hi]

/-! ## Shapes -/

/-- C39 for the text of a shape: its two lists are read as the names and the edges of the tensor, and after
them there is the closing brace. -/
theorem C39_shape [TatSym σ] [TextSym σ] (hl : TatSym.isNoSym σ = false → LawfulText σ)
    (exact : α → Prop) (t : Tensor (List Char) σ α) (h : Printable exact t) (rest : List Char) :
    ∃ text s, printShape console t = .ok text ∧
      scanVector scanName (ignoreTo ':' (some (text ++ rest))) = .ok (t.names, s) ∧
      scanVector scanEdge (ignoreTo ':' s) = .ok (t.core.edges, some ('}' :: rest)) := by
  have e1 : '{' :: titleText console "names" ++ printVector id t.names ++
    ',' :: titleText console "edges" ++ printVector id (t.core.edges.map edgeText) ++ ['}'] ++ rest =
      '{' :: titleText console "names" ++ (printVector id t.names ++ (',' :: titleText console "edges" ++
        (printVector edgeText t.core.edges ++ '}' :: rest))) := by
    have : printVector id (t.core.edges.map edgeText) = printVector edgeText t.core.edges := by
      unfold printVector
      rw [List.map_map]
      rfl
    rw [this]
    simp
  refine ⟨_, some (',' :: titleText console "edges" ++
        (printVector edgeText t.core.edges ++ '}' :: rest)),
    by unfold printShape; rw [printEdges_ok hl _ h.edges]; rfl, ?_, ?_⟩
  · rw [e1, ignoreTo_title console_ok '{' (by decide) "names" (by decide),
      scan_names t.names h.names h.notEmpty]
  · rw [ignoreTo_title console_ok ',' (by decide) "edges" (by decide),
      scan_edges hl t.core.edges h.edges]

/-! ## Cases -/

/-- The names of a program which has used `b` only. -/
def otherNames : Dataset (List Char) := (mkName (Dataset.init []) "b".toList).1

theorem otherNames_ok : otherNames.Consistent := mkName_consistent (Dataset.init_consistent _) _

/-- The names of the program that writes. -/
def writerNames : Dataset (List Char) := (internNames (Dataset.init []) ["a".toList, "b".toList]).1

-- `a` and `b` are 1 and 2 for the writer, 2 and 1 for the reader
example : (nameTexts writerNames [1, 2], internNames otherNames ["a".toList, "b".toList]) =
    (.ok ["a".toList, "b".toList], (mkName otherNames "a".toList).1, [2, 1]) := by decide +kernel

example : ∃ text d'' ids,
    printTensorFast writerNames plain wholeReal.toTextScalar ⟨[1, 2], textSampleU.core⟩ = .ok text ∧
    scanTensorFast otherNames wholeReal.toTextScalar (some (text ++ [])) =
      .ok ((d'', ⟨ids, textSampleU.core⟩), some []) ∧
    nameTexts d'' ids = .ok ["a".toList, "b".toList] ∧ d''.Consistent ∧
    ∀ i s, nameString otherNames i = .ok s → nameString d'' i = .ok s :=
  C39_other_dataset plain _ writerNames _ _ (by decide +kernel) []
    (C39_plain _ _ C39_whole_numbers.scalar textSampleU textSampleU_ok []) otherNames otherNames_ok

example : ValidName "a".toList ∧ validNameChar ',' = false := ⟨⟨by decide, by decide⟩, by decide⟩

example : scanFastName otherNames (some "a,b]".toList) =
    .ok (mkName otherNames "a".toList, some ",b]".toList) := by decide +kernel

example : ∃ text s, printShape console textSampleU = .ok text ∧
    scanVector scanName (ignoreTo ':' (some (text ++ []))) = .ok (textSampleU.names, s) ∧
    scanVector scanEdge (ignoreTo ':' s) = .ok (textSampleU.core.edges, some ['}']) :=
  C39_shape (fun _ => inferInstance) _ textSampleU textSampleU_ok []

-- the text the library writes
example : printShape console textSampleU = .ok
    "{\x1B[32mnames\x1B[0m:[a,b],\x1B[32medges\x1B[0m:[{-1:1,0:2},{0:1,1:1}]}".toList := by decide +kernel

end TAT
