import Verif.Io.TextMore

/-!
# Property C39: singular values whose text does not end as it should

The loops of io.hpp 329-334, 492-497 and 537-542 go on while the next character is a comma.
-/

namespace TAT

variable {σ α : Type}

/-- After the last entry any character that is no comma, or the end of the text, ends the loop. -/
theorem scanEntries_tail {κ β : Type} {scanKey : TextIn → Outcome (κ × TextIn)}
    {scanVal : TextIn → Outcome (β × TextIn)} {printKey : κ → List Char} {printVal : β → List Char}
    (m : List (κ × β)) (hm : m ≠ [])
    (hk : ∀ e ∈ m, ∀ rest, ∃ r, scanKey (some (printKey e.1 ++ ':' :: rest)) = .ok (e.1, r) ∧
      ignoreTo ':' r = some rest)
    (hv : ∀ e ∈ m, ∀ rest, scanVal (some (printVal e.2 ++ rest)) = .ok (e.2, some rest))
    (n : ℕ) (hn : m.length ≤ n) (tail : List Char) (ht : tail.head? ≠ some ',') :
    scanEntries scanKey scanVal n (some (joinComma (m.map (printEntry printKey printVal)) ++ tail)) =
      .ok (m, (getChar (some tail)).2) := by
  induction m generalizing n with
  | nil => exact absurd rfl hm
  | cons e m ih =>
    obtain ⟨n, rfl⟩ : ∃ k, n = k + 1 := ⟨n - 1, by simp at hn; omega⟩
    by_cases hm' : m = []
    · subst hm'
      simp only [List.map_cons, List.map_nil, joinComma, scanEntries, printEntry, List.append_assoc,
        List.cons_append]
      obtain ⟨r, h1, h2⟩ := hk e List.mem_cons_self (printVal e.2 ++ tail)
      rw [h1]
      simp only [Outcome.bind]
      rw [h2, hv e List.mem_cons_self tail]
      cases tail with
      | nil => rfl
      | cons c tail =>
        have hc : ¬ some c = some ',' := by simpa using ht
        exact if_neg hc
    · rw [List.map_cons, joinComma_cons _ (by simpa using hm')]
      simp only [scanEntries, printEntry, List.append_assoc, List.cons_append]
      obtain ⟨r, h1, h2⟩ := hk e List.mem_cons_self (printVal e.2 ++ ',' ::
        (joinComma (m.map (printEntry printKey printVal)) ++ tail))
      have ih' := ih hm' (fun y hy => hk y (List.mem_cons_of_mem _ hy))
        (fun y hy => hv y (List.mem_cons_of_mem _ hy)) n (by rw [List.length_cons] at hn; omega)
      rw [h1]
      simp only [Outcome.bind]
      rw [h2, hv e List.mem_cons_self]
      simp only [getChar, if_true, ih']

/-- **C39**: the closing brace of singular values of the fermionic symmetries is not looked at.  Without it, and with
any character but a comma in its place, the same values are read, and without it the stream has failed. -/
theorem C39_singular_brace [TatSym σ] [TextSym σ] [LawfulText σ] (hp : InParens σ) (hn : TatSym.isNoSym σ = false)
    (A : TextScalar α) (exact : α → Prop) (hA : LawfulScalar A exact) (v : List (σ × List α)) (hs : OMap.Sorted v)
    (hx : ∀ b ∈ v, ∀ x ∈ b.2, exact x) (h0 : v ≠ []) :
    ∃ text, printSingular console A v = .ok (text ++ ['}']) ∧ scanSingular A (some text) = .ok (v, none) ∧
      ∀ c rest, c ≠ ',' → scanSingular A (some (text ++ c :: rest)) = .ok (v, some rest) := by
  have hn' : ¬ TatSym.isNoSym σ = true := by rw [hn]; exact Bool.false_ne_true
  have key : ∀ tail : List Char, tail.head? ≠ some ',' → scanSingular A (some (('{' :: joinComma (v.map (printEntry
      (fun k => console.yellow ++ TextSym.print k ++ console.origin) (printVector A.print)))) ++ tail)) =
      .ok (v, (getChar (some tail)).2) := by
    intro tail ht
    unfold scanSingular
    rw [if_neg hn', List.cons_append]
    unfold scanMap
    rw [ignoreTo_head]
    obtain ⟨e, m, rfl⟩ := List.exists_cons_of_ne_nil h0
    have hy : ∃ l, joinComma ((e :: m).map (printEntry (fun k => console.yellow ++ TextSym.print k ++ console.origin)
        (printVector A.print))) = '\x1B' :: l := by
      have h1 : ∃ l, printEntry (fun k => console.yellow ++ TextSym.print k ++ console.origin) (printVector A.print) e =
          '\x1B' :: l := ⟨_, rfl⟩
      obtain ⟨l, h1⟩ := h1
      rw [List.map_cons]
      by_cases hm : m = []
      · subst hm
        exact ⟨l, h1⟩
      · rw [joinComma_cons _ (by simpa using hm), h1]
        exact ⟨_, rfl⟩
    obtain ⟨l, hl⟩ := hy
    have h3 : peekChar (some (joinComma ((e :: m).map (printEntry (fun k => console.yellow ++ TextSym.print k ++
        console.origin) (printVector A.print))) ++ tail)) = (some '\x1B', some (joinComma ((e :: m).map (printEntry
        (fun k => console.yellow ++ TextSym.print k ++ console.origin) (printVector A.print))) ++ tail)) := by
      rw [hl]
      rfl
    rw [h3]
    dsimp only
    rw [if_neg (by decide), scanEntries_tail (e :: m) h0 (fun b hb rest => ⟨_, by
        rw [List.append_assoc _ console.origin, hp b.1 console.yellow _ (by decide)],
        ignoreTo_append _ _ _ console_ok.origin⟩) (fun b hb rest => by
        have := scanVector_scalars hA b.2 (hx b hb) [] rest (by simp)
        rwa [List.nil_append] at this) _ (by
        have := length_joinComma ((e :: m).map (printEntry (fun k => console.yellow ++ TextSym.print k ++
          console.origin) (printVector A.print)))
        rw [List.length_map] at this
        simp only [Option.getD_some, List.length_append, List.length_cons] at this ⊢
        omega) tail ht]
    simp only [Outcome.bind]
    rw [OMap.ofList_sorted hs]
  refine ⟨_, by unfold printSingular; rw [if_neg hn']; rfl, ?_, fun c rest hc => ?_⟩
  · have := key [] (by simp)
    rwa [List.append_nil] at this
  · exact key (c :: rest) (by simpa using hc)

/-- Two singular values of `FermiU1Symmetry`. -/
def textSingular : List (FermiU1Symmetry × List Int) := [(⟨0, 0⟩, [7]), (⟨1, 2⟩, [8, 3])]

example : ∃ text, printSingular console wholeReal.toTextScalar textSingular = .ok (text ++ ['}']) ∧
    scanSingular wholeReal.toTextScalar (some text) = .ok (textSingular, none) ∧
    ∀ c rest, c ≠ ',' →
      scanSingular wholeReal.toTextScalar (some (text ++ c :: rest)) = .ok (textSingular, some rest) :=
  C39_singular_brace inParens_fermiU1 rfl _ _ C39_whole_numbers.scalar _ (by decide +kernel)
    (fun _ _ _ _ => trivial) (by decide)

example : scanSingular wholeReal.toTextScalar (some "{(0,0):[7],(1,2):[8,3];".toList) =
    .ok (textSingular, some []) := by decide +kernel

end TAT
