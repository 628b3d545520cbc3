import Verif.Io.Text
import Verif.Io.BinaryLemmas

/-!
# Lemmas about text input and output
-/

namespace TAT

variable {ν σ α τ : Type}

/-- `scan` takes `text` for `x` whenever a character with `stop` follows, and leaves that character. -/
def ScansTo (scan : TextIn → Outcome (τ × TextIn)) (text : List Char) (x : τ) (stop : Char → Prop) : Prop :=
  ∀ c rest, stop c → scan (some (text ++ c :: rest)) = .ok (x, some (c :: rest))

theorem ScansTo.mono {scan : TextIn → Outcome (τ × TextIn)} {text : List Char} {x : τ} {stop stop' : Char → Prop}
    (h : ScansTo scan text x stop) (hs : ∀ c, stop' c → stop c) : ScansTo scan text x stop' :=
  fun c rest hc => h c rest (hs c hc)

theorem ignoreTo_append (c : Char) (pre rest : List Char) (h : c ∉ pre) :
    ignoreTo c (some (pre ++ c :: rest)) = some rest := by
  unfold ignoreTo
  dsimp only
  have : (pre ++ c :: rest).dropWhile (· ≠ c) = c :: rest := by
    induction pre with
    | nil => simp
    | cons a pre ih =>
      rw [List.cons_append, List.dropWhile_cons_of_pos (by
        simp only [ne_eq, decide_not, Bool.not_eq_true', decide_eq_false_iff_not]
        exact fun e => h (by rw [e]; exact List.mem_cons_self))]
      exact ih fun hm => h (List.mem_cons_of_mem _ hm)
  rw [this]

/-! ## Integers -/

theorem toNat_digitOf (n : ℕ) : (digitOf n).toNat = 48 + n % 10 := by
  have h : n % 10 < 10 := Nat.mod_lt _ (by omega)
  unfold digitOf
  generalize n % 10 = m at h
  match m, h with
  | 0, _ | 1, _ | 2, _ | 3, _ | 4, _ | 5, _ | 6, _ | 7, _ | 8, _ | 9, _ => rfl

theorem isDigit_digitOf (n : ℕ) : isDigitChar (digitOf n) = true := by
  unfold isDigitChar
  rw [toNat_digitOf]
  have h : n % 10 < 10 := Nat.mod_lt _ (by omega)
  have h0 : '0'.toNat = 48 := rfl
  have h9 : '9'.toNat = 57 := rfl
  simp only [h0, h9, Bool.and_eq_true, decide_eq_true_eq]
  omega

theorem decimal_digits (n : ℕ) : ∀ c ∈ decimal n, isDigitChar c = true := by
  induction n using Nat.strongRecOn with
  | ind n ih =>
    rw [decimal]
    split
    · intro c hc
      rw [List.mem_singleton] at hc
      rw [hc]
      exact isDigit_digitOf n
    · intro c hc
      rcases List.mem_append.1 hc with hc | hc
      · exact ih (n / 10) (by omega) c hc
      · rw [List.mem_singleton] at hc
        rw [hc]
        exact isDigit_digitOf n

theorem decimal_ne_nil (n : ℕ) : decimal n ≠ [] := by
  rw [decimal]
  split
  · exact List.cons_ne_nil _ _
  · exact fun h => absurd (List.append_eq_nil_iff.1 h).2 (List.cons_ne_nil _ _)

theorem ofDecimal_decimal (n : ℕ) : ofDecimal (decimal n) = n := by
  induction n using Nat.strongRecOn with
  | ind n ih =>
    rw [decimal]
    have h0 : '0'.toNat = 48 := rfl
    split
    · simp only [ofDecimal, List.foldl_cons, List.foldl_nil, toNat_digitOf, h0]
      omega
    · have := ih (n / 10) (by omega)
      unfold ofDecimal at this ⊢
      rw [List.foldl_append, this]
      simp only [List.foldl_cons, List.foldl_nil, toNat_digitOf, h0]
      omega

/-- The characters that can follow a number. -/
def NotDigit (c : Char) : Prop := isDigitChar c = false

theorem takeWhile_digits {l : List Char} {c : Char} {rest : List Char} (h : ∀ x ∈ l, isDigitChar x = true)
    (hc : NotDigit c) : (l ++ c :: rest).takeWhile isDigitChar = l := by
  rw [List.takeWhile_append_of_pos h, List.takeWhile_cons_of_neg (by rw [hc]; exact Bool.false_ne_true),
    List.append_nil]

theorem dropWhile_digits {l : List Char} {c : Char} {rest : List Char} (h : ∀ x ∈ l, isDigitChar x = true)
    (hc : NotDigit c) : (l ++ c :: rest).dropWhile isDigitChar = c :: rest := by
  rw [List.dropWhile_append_of_pos h, List.dropWhile_cons_of_neg (by rw [hc]; exact Bool.false_ne_true)]

theorem not_space_of_digit {c : Char} (h : isDigitChar c = true) : isSpaceChar c = false := by
  unfold isDigitChar at h
  unfold isSpaceChar
  have h0 : '0'.toNat = 48 := rfl
  have h9 : '9'.toNat = 57 := rfl
  simp only [h0, h9, Bool.and_eq_true, decide_eq_true_eq] at h
  simp only [Bool.or_eq_false_iff, beq_eq_false_iff_ne, ne_eq, Bool.and_eq_false_iff, decide_eq_false_iff_not]
  omega

theorem not_sign_of_digit {c : Char} (h : isDigitChar c = true) : c ≠ '-' ∧ c ≠ '+' := by
  constructor <;> (rintro rfl; exact absurd h (by decide))

theorem scanNumber_nat (n : ℕ) {c : Char} (rest : List Char) (hc : NotDigit c) :
    scanNumber (decimal n ++ c :: rest) = (some (false, n), some (c :: rest)) := by
  obtain ⟨a, l, hl⟩ := List.exists_cons_of_ne_nil (decimal_ne_nil n)
  have ha : isDigitChar a = true := decimal_digits n a (by rw [hl]; exact List.mem_cons_self)
  have hd := decimal_digits n
  unfold scanNumber
  have h1 : (decimal n ++ c :: rest).dropWhile isSpaceChar = decimal n ++ c :: rest := by
    rw [hl, List.cons_append, List.dropWhile_cons_of_neg (by
      rw [not_space_of_digit ha]; exact Bool.false_ne_true)]
  have h2 : (decimal n ++ c :: rest).head? = some a := by rw [hl]; rfl
  have h3 := not_sign_of_digit ha
  simp only [h1, h2]
  have e1 : (some a == some '-') = false := by simpa using h3.1
  have e2 : (some a == some '+') = false := by simpa using h3.2
  rw [e1, e2]
  simp only [Bool.or_self, Bool.false_eq_true, if_false, takeWhile_digits hd hc, dropWhile_digits hd hc,
    ofDecimal_decimal]
  rw [if_neg (by simp [decimal_ne_nil]), if_neg (by simp)]

theorem scanNumber_sign (b : Bool) (n : ℕ) {c : Char} (rest : List Char) (hc : NotDigit c) :
    scanNumber ((if b then '-' else '+') :: decimal n ++ c :: rest) = (some (b, n), some (c :: rest)) := by
  have hd := decimal_digits n
  unfold scanNumber
  have h1 : ((if b then '-' else '+') :: decimal n ++ c :: rest).dropWhile isSpaceChar =
      (if b then '-' else '+') :: (decimal n ++ c :: rest) := by
    rw [List.cons_append, List.dropWhile_cons_of_neg (by cases b <;> decide)]
  simp only [h1, List.head?_cons, List.tail_cons]
  have e1 : ((some (if b then '-' else '+') == some '-')) = b := by cases b <;> decide
  have e2 : ((some (if b then '-' else '+') == some '-') || (some (if b then '-' else '+') == some '+')) = true := by
    cases b <;> decide
  rw [e2, e1]
  simp only [if_true, takeWhile_digits hd hc, dropWhile_digits hd hc, ofDecimal_decimal]
  rw [if_neg (by simp [decimal_ne_nil]), if_neg (by simp)]

theorem scanNumber_int (i : Int) {c : Char} (rest : List Char) (hc : NotDigit c) :
    scanNumber (printInt i ++ c :: rest) = (some (decide (i < 0), i.natAbs), some (c :: rest)) := by
  unfold printInt
  split
  · next h =>
    rw [decide_eq_true h]
    exact scanNumber_sign true i.natAbs rest hc
  · next h =>
    rw [decide_eq_false h]
    exact scanNumber_nat i.natAbs rest hc

theorem scanAs_some {conv : Bool → ℕ → Option τ} {dflt : τ} {l : List Char} {b : Bool} {n : ℕ} {x : τ}
    {s : TextIn} (h : scanNumber l = (some (b, n), s)) (hc : conv b n = some x) :
    scanAs conv dflt (some l) = (x, s) := by
  unfold scanAs
  simp only [h, hc]

theorem scansTo_size {n : ℕ} (h : n < 2 ^ 64) :
    ScansTo (fun s => .ok (scanSize s)) (printSize n) n NotDigit := by
  intro c rest hc
  unfold scanSize printSize
  beta_reduce
  rw [scanAs_some (scanNumber_nat n rest hc) (x := n) (by rw [if_pos h]; rfl)]

theorem scansTo_bool (b : Bool) : ScansTo (fun s => .ok (scanBool s)) (printBool b) b NotDigit := by
  intro c rest hc
  unfold scanBool printBool
  beta_reduce
  rw [scanAs_some (scanNumber_nat _ rest hc) (x := b) (by cases b <;> rfl)]

theorem scanBits_print {w : ℕ} (x : BitVec w) {c : Char} (rest : List Char) (hc : NotDigit c) :
    scanBits w (some (printBits x ++ c :: rest)) = (x, some (c :: rest)) := by
  unfold scanBits printBits
  refine scanAs_some (scanNumber_int x.toInt rest hc) ?_
  have h1 : (if decide (x.toInt < 0) = true then -(x.toInt.natAbs : Int) else x.toInt.natAbs) = x.toInt := by
    split
    · next h => rw [decide_eq_true_eq] at h; omega
    · next h => rw [decide_eq_true_eq] at h; omega
  simp only [h1]
  have h2 := BitVec.le_toInt x
  have h3 := BitVec.toInt_lt (x := x)
  rw [if_pos ⟨h2, h3⟩, BitVec.ofInt_toInt]

theorem printInt_head (i : Int) : ∃ a l, printInt i = a :: l ∧ (a = '-' ∨ isDigitChar a = true) := by
  unfold printInt
  split
  · exact ⟨_, _, rfl, Or.inl rfl⟩
  · obtain ⟨a, l, hl⟩ := List.exists_cons_of_ne_nil (decimal_ne_nil i.natAbs)
    exact ⟨a, l, hl, Or.inr (decimal_digits _ a (by rw [hl]; exact List.mem_cons_self))⟩

theorem decimal_head (n : ℕ) : ∃ a l, decimal n = a :: l ∧ (a = '-' ∨ isDigitChar a = true) := by
  obtain ⟨a, l, hl⟩ := List.exists_cons_of_ne_nil (decimal_ne_nil n)
  exact ⟨a, l, hl, Or.inr (decimal_digits _ a (by rw [hl]; exact List.mem_cons_self))⟩

theorem mem_printInt {i : Int} {c : Char} (h : c ∈ printInt i) : c = '-' ∨ isDigitChar c = true := by
  unfold printInt at h
  split at h
  · rcases List.mem_cons.1 h with h | h
    · exact Or.inl h
    · exact Or.inr (decimal_digits _ c h)
  · exact Or.inr (decimal_digits _ c h)

/-! ## Symmetries -/

/-- What is needed about the text of a symmetry. -/
class LawfulText (σ : Type) [TextSym σ] : Prop where
  scans : ∀ x : σ, ScansTo (fun s => .ok (TextSym.scan s)) (TextSym.print x) x NotDigit
  head : ∀ x : σ, ∃ a l, TextSym.print x = a :: l ∧ (a = '-' ∨ a = '(' ∨ isDigitChar a = true)

instance : LawfulText Z2Symmetry where
  scans x c rest hc := by
    have := scansTo_bool x.z2 c rest hc
    simp only [Outcome.ok.injEq] at this
    simp only [TextSym.scan, TextSym.print, this]
  head x := by
    obtain ⟨a, l, h1, h2⟩ := decimal_head (if x.z2 then 1 else 0)
    exact ⟨a, l, h1, by tauto⟩

instance : LawfulText U1Symmetry where
  scans x c rest hc := by
    simp only [TextSym.scan, TextSym.print, scanBits_print x.u1 rest hc]
  head x := by
    obtain ⟨a, l, h1, h2⟩ := printInt_head x.u1.toInt
    exact ⟨a, l, h1, by tauto⟩

instance : LawfulText FermiSymmetry where
  scans x c rest hc := by
    simp only [TextSym.scan, TextSym.print, scanBits_print x.fermi rest hc]
  head x := by
    obtain ⟨a, l, h1, h2⟩ := printInt_head x.fermi.toInt
    exact ⟨a, l, h1, by tauto⟩

theorem ignoreTo_head (c : Char) (rest : List Char) : ignoreTo c (some (c :: rest)) = some rest :=
  ignoreTo_append c [] rest (by simp)

/-- Before a symmetry in parentheses everything but an opening parenthesis is ignored. -/
theorem scan_fermiZ2 (x : FermiZ2Symmetry) (pre rest : List Char) (h : '(' ∉ pre) :
    TextSym.scan (some (pre ++ TextSym.print x ++ rest)) = (x, some rest) := by
  have e : pre ++ TextSym.print x ++ rest =
      pre ++ '(' :: (printBits x.fermi ++ ',' :: (printBool x.z2 ++ ')' :: rest)) := by
    show pre ++ ('(' :: printBits x.fermi ++ ',' :: printBool x.z2 ++ [')']) ++ rest = _
    simp
  have hb := scansTo_bool x.z2 ')' rest (by unfold NotDigit; decide)
  simp only [Outcome.ok.injEq] at hb
  rw [e]
  simp only [TextSym.scan]
  rw [ignoreTo_append '(' pre _ h, scanBits_print x.fermi _ (by unfold NotDigit; decide)]
  simp only
  rw [ignoreTo_head, hb]
  simp only
  rw [ignoreTo_head]

theorem scan_fermiU1 (x : FermiU1Symmetry) (pre rest : List Char) (h : '(' ∉ pre) :
    TextSym.scan (some (pre ++ TextSym.print x ++ rest)) = (x, some rest) := by
  have e : pre ++ TextSym.print x ++ rest =
      pre ++ '(' :: (printBits x.fermi ++ ',' :: (printBits x.u1 ++ ')' :: rest)) := by
    show pre ++ ('(' :: printBits x.fermi ++ ',' :: printBits x.u1 ++ [')']) ++ rest = _
    simp
  rw [e]
  simp only [TextSym.scan]
  rw [ignoreTo_append '(' pre _ h, scanBits_print x.fermi _ (by unfold NotDigit; decide)]
  simp only
  rw [ignoreTo_head, scanBits_print x.u1 _ (by unfold NotDigit; decide)]
  simp only
  rw [ignoreTo_head]

instance : LawfulText FermiZ2Symmetry where
  scans x c rest _ := by
    have := scan_fermiZ2 x [] (c :: rest) (by simp)
    rw [List.nil_append] at this
    simp only [this]
  head x := ⟨_, _, rfl, by tauto⟩

instance : LawfulText FermiU1Symmetry where
  scans x c rest _ := by
    have := scan_fermiU1 x [] (c :: rest) (by simp)
    rw [List.nil_append] at this
    simp only [this]
  head x := ⟨_, _, rfl, by tauto⟩

/-! ## Names -/

/-- A name that can be written and read. -/
structure ValidName (s : List Char) : Prop where
  chars : ∀ c ∈ s, validNameChar c = true
  length : s.length ≤ 255

theorem scansTo_name {s : List Char} (h : ValidName s) :
    ScansTo scanName s s fun c => validNameChar c = false := by
  intro c rest hc
  have hc' : ¬ validNameChar c = true := by rw [hc]; exact Bool.false_ne_true
  unfold scanName
  simp only
  rw [List.takeWhile_append_of_pos h.chars, List.takeWhile_cons_of_neg hc', List.append_nil,
    List.dropWhile_append_of_pos h.chars, List.dropWhile_cons_of_neg hc',
    if_neg (by have := h.length; omega), if_neg (by simp)]

/-! ## Lists -/

/-- The characters after an item of a list. -/
def ItemStop (c : Char) : Prop := c = ',' ∨ c = ']'

theorem joinComma_cons (x : List Char) {l : List (List Char)} (h : l ≠ []) :
    joinComma (x :: l) = x ++ ',' :: joinComma l := by
  match l, h with
  | y :: l, _ => rfl

theorem length_joinComma (l : List (List Char)) : l.length ≤ (joinComma l).length + 1 := by
  induction l with
  | nil => exact Nat.zero_le _
  | cons x l ih =>
    by_cases h : l = []
    · subst h
      simp
    · rw [joinComma_cons x h]
      simp only [List.length_append, List.length_cons]
      omega

theorem scanItems_print {scan : TextIn → Outcome (τ × TextIn)} {print : τ → List Char} (l : List τ)
    (hl : l ≠ []) (h : ∀ x ∈ l, ScansTo scan (print x) x ItemStop) (n : ℕ) (hn : l.length ≤ n)
    (rest : List Char) :
    scanItems scan n (some (joinComma (l.map print) ++ ']' :: rest)) = .ok (l, some rest) := by
  induction l generalizing n with
  | nil => exact absurd rfl hl
  | cons x l ih =>
    obtain ⟨n, rfl⟩ : ∃ m, n = m + 1 := ⟨n - 1, by simp at hn; omega⟩
    have hx := h x List.mem_cons_self
    by_cases hl' : l = []
    · subst hl'
      simp only [List.map_cons, List.map_nil, joinComma, scanItems]
      rw [hx ']' rest (Or.inr rfl)]
      rfl
    · rw [List.map_cons, joinComma_cons _ (by simpa using hl'), List.append_assoc, List.cons_append, scanItems,
        hx ',' _ (Or.inl rfl)]
      simp only [Outcome.bind, getChar]
      rw [if_neg (by decide), ih hl' (fun y hy => h y (List.mem_cons_of_mem _ hy)) n (by
        rw [List.length_cons] at hn; omega)]

/-- A list is read back; the text before its opening bracket is ignored. -/
theorem scanVector_print {scan : TextIn → Outcome (τ × TextIn)} {print : τ → List Char} (l : List τ)
    (h : ∀ x ∈ l, ScansTo scan (print x) x ItemStop) (hb : ∀ x ∈ l, ∀ r, print x ≠ ']' :: r)
    (he : l.map print ≠ [[]]) (pre rest : List Char) (hp : '[' ∉ pre) :
    scanVector scan (some (pre ++ printVector print l ++ rest)) = .ok (l, some rest) := by
  unfold scanVector printVector
  rw [List.append_assoc, List.cons_append, List.cons_append, ignoreTo_append '[' pre _ hp, List.append_assoc,
    List.cons_append, List.nil_append]
  by_cases hl : l = []
  · subst hl
    rfl
  · obtain ⟨x, l', rfl⟩ := List.exists_cons_of_ne_nil hl
    have hhead : ∃ c r, joinComma ((x :: l').map print) ++ ']' :: rest = c :: r ∧ c ≠ ']' := by
      rw [List.map_cons]
      cases hx : print x with
      | nil =>
        have hl' : l' ≠ [] := by
          rintro rfl
          exact he (by rw [List.map_cons, hx]; rfl)
        rw [joinComma_cons _ (by simpa using hl')]
        exact ⟨',', _, rfl, by decide⟩
      | cons a r =>
        have ha : a ≠ ']' := fun e => hb x List.mem_cons_self r (by rw [hx, e])
        by_cases hl' : l' = []
        · subst hl'
          exact ⟨a, _, rfl, ha⟩
        · rw [joinComma_cons _ (by simpa using hl')]
          exact ⟨a, _, rfl, ha⟩
    obtain ⟨c, r, h1, h2⟩ := hhead
    have h3 : peekChar (some (joinComma ((x :: l').map print) ++ ']' :: rest)) =
        (some c, some (joinComma ((x :: l').map print) ++ ']' :: rest)) := by
      rw [h1]
      rfl
    rw [h3]
    simp only
    rw [if_neg (by simpa using h2)]
    refine scanItems_print (x :: l') (List.cons_ne_nil _ _) h _ ?_ rest
    have := length_joinComma ((x :: l').map print)
    rw [List.length_map] at this
    simp only [Option.getD_some, List.length_append, List.length_cons] at this ⊢
    omega

/-! ## Maps -/

theorem scanEntries_print {κ β : Type} {scanKey : TextIn → Outcome (κ × TextIn)}
    {scanVal : TextIn → Outcome (β × TextIn)} {printKey : κ → List Char} {printVal : β → List Char}
    (m : List (κ × β)) (hm : m ≠ [])
    (hk : ∀ e ∈ m, ∀ rest, ∃ r, scanKey (some (printKey e.1 ++ ':' :: rest)) = .ok (e.1, r) ∧
      ignoreTo ':' r = some rest)
    (hv : ∀ e ∈ m, ScansTo scanVal (printVal e.2) e.2 fun c => c = ',' ∨ c = '}')
    (n : ℕ) (hn : m.length ≤ n) (rest : List Char) :
    scanEntries scanKey scanVal n (some (joinComma (m.map (printEntry printKey printVal)) ++ '}' :: rest)) =
      .ok (m, some rest) := by
  induction m generalizing n with
  | nil => exact absurd rfl hm
  | cons e m ih =>
    obtain ⟨n, rfl⟩ : ∃ k, n = k + 1 := ⟨n - 1, by simp at hn; omega⟩
    by_cases hm' : m = []
    · subst hm'
      simp only [List.map_cons, List.map_nil, joinComma, scanEntries, printEntry, List.append_assoc,
        List.cons_append]
      obtain ⟨r, h1, h2⟩ := hk e List.mem_cons_self (printVal e.2 ++ '}' :: rest)
      rw [h1]
      simp only [Outcome.bind]
      rw [h2, hv e List.mem_cons_self '}' rest (Or.inr rfl)]
      rfl
    · rw [List.map_cons, joinComma_cons _ (by simpa using hm')]
      simp only [scanEntries, printEntry, List.append_assoc, List.cons_append]
      obtain ⟨r, h1, h2⟩ := hk e List.mem_cons_self (printVal e.2 ++ ',' ::
        (joinComma (m.map (printEntry printKey printVal)) ++ '}' :: rest))
      have ih' := ih hm' (fun y hy => hk y (List.mem_cons_of_mem _ hy))
        (fun y hy => hv y (List.mem_cons_of_mem _ hy)) n (by rw [List.length_cons] at hn; omega)
      rw [h1]
      simp only [Outcome.bind]
      rw [h2, hv e List.mem_cons_self ',' _ (Or.inl rfl)]
      simp only [getChar, if_true, ih']

theorem scanMap_print {κ β : Type} [LinearOrder κ] {scanKey : TextIn → Outcome (κ × TextIn)}
    {scanVal : TextIn → Outcome (β × TextIn)} {printKey : κ → List Char} {printVal : β → List Char}
    (m : List (κ × β)) (hs : OMap.Sorted m)
    (hk : ∀ e ∈ m, ∀ rest, ∃ r, scanKey (some (printKey e.1 ++ ':' :: rest)) = .ok (e.1, r) ∧
      ignoreTo ':' r = some rest)
    (hv : ∀ e ∈ m, ScansTo scanVal (printVal e.2) e.2 fun c => c = ',' ∨ c = '}')
    (hh : ∀ e ∈ m, ∀ r, printKey e.1 ≠ '}' :: r)
    (pre rest : List Char) (hp : '{' ∉ pre) :
    scanMap scanKey scanVal (some (pre ++ printMap printKey printVal m ++ rest)) = .ok (m, some rest) := by
  unfold scanMap printMap
  rw [List.append_assoc, List.cons_append, List.cons_append, ignoreTo_append '{' pre _ hp, List.append_assoc,
    List.cons_append, List.nil_append]
  by_cases hm : m = []
  · subst hm
    rfl
  · obtain ⟨e, m', rfl⟩ := List.exists_cons_of_ne_nil hm
    have hhead : ∃ c r, joinComma ((e :: m').map (printEntry printKey printVal)) ++ '}' :: rest = c :: r ∧
        c ≠ '}' := by
      have h1 : ∃ c r, printEntry printKey printVal e = c :: r ∧ c ≠ '}' := by
        unfold printEntry
        cases hx : printKey e.1 with
        | nil => exact ⟨':', _, rfl, by decide⟩
        | cons a r => exact ⟨a, _, rfl, fun h => hh e List.mem_cons_self r (by rw [hx, h])⟩
      obtain ⟨c, r, h1, h2⟩ := h1
      rw [List.map_cons]
      by_cases hm' : m' = []
      · subst hm'
        exact ⟨c, r ++ '}' :: rest, by simp [joinComma, h1], h2⟩
      · rw [joinComma_cons _ (by simpa using hm'), h1]
        exact ⟨c, _, rfl, h2⟩
    obtain ⟨c, r, h1, h2⟩ := hhead
    have h3 : peekChar (some (joinComma ((e :: m').map (printEntry printKey printVal)) ++ '}' :: rest)) =
        (some c, some (joinComma ((e :: m').map (printEntry printKey printVal)) ++ '}' :: rest)) := by
      rw [h1]
      rfl
    rw [h3]
    simp only
    rw [if_neg (by simpa using h2), scanEntries_print (e :: m') hm hk hv _ (by
      have := length_joinComma ((e :: m').map (printEntry printKey printVal))
      rw [List.length_map] at this
      simp only [Option.getD_some, List.length_append, List.length_cons] at this ⊢
      omega) rest]
    simp only [Outcome.bind]
    rw [OMap.ofList_sorted hs]

end TAT
