import Verif.Io.TextLemmas
import Verif.Io.BinaryProps

/-!
# Scalars, edges and tensors as text
-/

namespace TAT

variable {ν σ α τ : Type}

/-- The values `exact` are printed such that reading gives them back. -/
structure LawfulScalar (A : TextScalar α) (exact : α → Prop) : Prop where
  scans : ∀ x, exact x → ScansTo (fun s => .ok (A.scan s)) (A.print x) x ItemStop
  head : ∀ x, exact x → ∃ a l, A.print x = a :: l ∧ a ≠ ']'

/-- The characters after a real number: in a list or inside of a complex number. -/
def RealStop (c : Char) : Prop := c = ',' ∨ c = ']' ∨ c = 'i' ∨ c = '+' ∨ c = '-'

/-- What is needed about real numbers to print complex numbers: negative numbers begin with a minus sign,
positive ones may be preceded by a plus sign, zero is printed as 0 and there is no other zero. -/
structure LawfulReal {ρ : Type} (R : TextReal ρ) (exact : ρ → Prop) : Prop where
  scans : ∀ x, exact x → ScansTo (fun s => .ok (R.scan s)) (R.print x) x RealStop
  plus : ∀ x, exact x → R.isPos x = true → ScansTo (fun s => .ok (R.scan s)) ('+' :: R.print x) x RealStop
  head : ∀ x, exact x → ∃ a l, R.print x = a :: l ∧ a ≠ ']'
  minus : ∀ x, exact x → R.isZero x = false → R.isPos x = false → ∃ l, R.print x = '-' :: l
  zero : ScansTo (fun s => .ok (R.scan s)) ['0'] R.zero RealStop
  isZero : ∀ x, exact x → R.isZero x = true → x = R.zero

theorem LawfulReal.scalar {ρ : Type} {R : TextReal ρ} {exact : ρ → Prop} (h : LawfulReal R exact) :
    LawfulScalar R.toTextScalar exact :=
  ⟨fun x hx => (h.scans x hx).mono fun c hc => by rcases hc with hc | hc <;> simp [RealStop, hc], h.head⟩

/-- Complex numbers are read back if their parts are. -/
theorem LawfulReal.complex {ρ : Type} {R : TextReal ρ} {exact : ρ → Prop} (h : LawfulReal R exact) :
    LawfulScalar (complexScalar R) fun x => exact x.1 ∧ exact x.2 := by
  have scan_of {x : ρ} {text : List Char} (hs : ScansTo (fun s => .ok (R.scan s)) text x RealStop) (c : Char)
      (rest : List Char) (hc : RealStop c) : R.scan (some (text ++ c :: rest)) = (x, some (c :: rest)) := by
    have := hs c rest hc
    simpa using this
  constructor
  · rintro ⟨x, y⟩ ⟨hx, hy⟩ c rest hc
    simp only at hx hy
    have hc' : RealStop c := by rcases hc with hc | hc <;> simp [RealStop, hc]
    have hci : c ≠ 'i' ∧ c ≠ '+' ∧ c ≠ '-' := by rcases hc with rfl | rfl <;> decide
    show Outcome.ok (scanComplex R (some (printComplex R (x, y) ++ c :: rest))) = _
    congr 1
    unfold printComplex
    cases hzx : R.isZero x with
    | false =>
      simp only [hzx, Bool.not_false, if_true]
      cases hzy : R.isZero y with
      | true =>
        have := h.isZero y hy hzy
        simp only [Bool.not_true, Bool.false_eq_true, if_false, List.append_nil]
        unfold scanComplex
        simp only [scan_of (h.scans x hx) c rest hc', peekChar, Option.some.injEq]
        rw [if_neg hci.1, if_neg (by simp [hci]), this]
      | false =>
        simp only [Bool.not_false, if_true]
        cases hp : R.isPos y with
        | true =>
          simp only [if_true, List.append_assoc, List.cons_append, List.nil_append]
          unfold scanComplex
          have := scan_of (h.plus y hy hp) 'i' (c :: rest) (by simp [RealStop])
          rw [List.cons_append] at this
          simp only [scan_of (h.scans x hx) '+' _ (by simp [RealStop]), peekChar, this, getChar]
          rfl
        | false =>
          obtain ⟨l, hl⟩ := h.minus y hy hzy hp
          have := scan_of (h.scans y hy) 'i' (c :: rest) (by simp [RealStop])
          rw [hl, List.cons_append] at this
          simp only [Bool.false_eq_true, if_false, List.nil_append, List.append_assoc, List.cons_append, hl]
          unfold scanComplex
          simp only [scan_of (h.scans x hx) '-' _ (by simp [RealStop]), peekChar, this, getChar]
          rfl
    | true =>
      have hx0 := h.isZero x hx hzx
      simp only [hzx, Bool.not_true, Bool.false_eq_true, if_false]
      cases hzy : R.isZero y with
      | true =>
        have hy0 := h.isZero y hy hzy
        unfold scanComplex
        simp only [if_true, scan_of h.zero c rest hc', peekChar, Option.some.injEq]
        rw [if_neg hci.1, if_neg (by simp [hci]), hx0, hy0]
      | false =>
        unfold scanComplex
        simp only [Bool.false_eq_true, if_false, List.append_assoc, List.cons_append, List.nil_append]
        simp only [scan_of (h.scans y hy) 'i' (c :: rest) (by simp [RealStop]), peekChar, if_true, getChar,
          hx0]
  · rintro ⟨x, y⟩ ⟨hx, hy⟩
    simp only at hx hy
    show ∃ a l, printComplex R (x, y) = a :: l ∧ _
    unfold printComplex
    cases hzx : R.isZero x with
    | false =>
      obtain ⟨a, l, h1, h2⟩ := h.head x hx
      simp only [hzx, Bool.not_false, if_true, h1, List.cons_append]
      exact ⟨a, _, rfl, h2⟩
    | true =>
      cases hzy : R.isZero y with
      | true => exact ⟨'0', [], by simp [hzx, hzy], by decide⟩
      | false =>
        obtain ⟨a, l, h1, h2⟩ := h.head y hy
        simp only [hzx, hzy, Bool.not_true, Bool.false_eq_true, if_false, h1, List.cons_append]
        exact ⟨a, _, rfl, h2⟩

/-! ## Edges -/

/-- The text of an edge, if there is one. -/
def edgeText [TatSym σ] [TextSym σ] (e : Edge σ) : List Char := (printEdge e).toOption.getD []

theorem notDigit_item {c : Char} (h : ItemStop c) : NotDigit c := by
  rcases h with rfl | rfl <;> (unfold NotDigit; decide)

theorem scanMap_edge [TatSym σ] [TextSym σ] [LawfulText σ] {e : Edge σ} (h : EdgeIo e)
    (pre rest : List Char) (hp : '{' ∉ pre) :
    scanMap (fun s => .ok (TextSym.scan s : σ × TextIn)) (fun s => .ok (scanSize s))
      (some (pre ++ printMap TextSym.print printSize e.map ++ rest)) = .ok (e.map, some rest) := by
  refine scanMap_print e.map h.sorted (fun x _ rest => ⟨some (':' :: rest), ?_, ignoreTo_head _ _⟩)
    (fun x hx => (scansTo_size (h.dims x hx)).mono ?_) (fun x _ r => ?_) pre rest hp
  · exact LawfulText.scans x.1 ':' rest (by unfold NotDigit; decide)
  · rintro c (rfl | rfl) <;> (unfold NotDigit; decide)
  · obtain ⟨a, l, h1, h2⟩ := LawfulText.head x.1
    rw [h1]
    rintro e
    cases e
    rcases h2 with h2 | h2 | h2
    · exact absurd h2 (by decide)
    · exact absurd h2 (by decide)
    · exact absurd h2 (by decide)

theorem edge_reads [TatSym σ] [TextSym σ] (hl : TatSym.isNoSym σ = false → LawfulText σ) {e : Edge σ}
    (h : EdgeIo e) : printEdge e = .ok (edgeText e) ∧ ScansTo scanEdge (edgeText e) e ItemStop ∧
      ∃ a l, edgeText e = a :: l ∧ a ≠ ']' := by
  cases hn : TatSym.isNoSym σ with
  | true =>
    obtain ⟨d, hd⟩ := noSym_map_single hn h.sorted (h.noSym hn)
    have hlt : d < 2 ^ 64 := h.dims (0, d) (by rw [hd]; exact List.mem_cons_self)
    have hp : printEdge e = .ok (printSize d) := by
      unfold printEdge
      rw [if_pos hn, hd]
      simp only [OMap.find?, if_true]
    have he : edgeText e = printSize d := by
      unfold edgeText
      rw [hp]
      rfl
    refine ⟨by rw [hp, he], ?_, ?_⟩
    · intro c rest hc
      have := scansTo_size hlt c rest (notDigit_item hc)
      simp only [Outcome.ok.injEq] at this
      rw [he]
      unfold scanEdge
      rw [if_pos hn, this]
      have ha := h.arrow (TatSym.noSym_bose hn)
      obtain ⟨a, m⟩ := e
      simp only at hd ha
      rw [hd, ha]
    · obtain ⟨a, l, h1, h2⟩ := decimal_head d
      refine ⟨a, l, by rw [he]; exact h1, ?_⟩
      rintro rfl
      rcases h2 with h2 | h2
      · exact absurd h2 (by decide)
      · exact absurd h2 (by decide)
  | false =>
    haveI := hl hn
    have hn' : ¬ TatSym.isNoSym σ = true := by rw [hn]; exact Bool.false_ne_true
    cases hf : TatSym.isFermi σ with
    | true =>
      have hp : printEdge e = .ok ("{arrow:".toList ++ printBool e.arrow ++ ",map:".toList ++
          printMap TextSym.print printSize e.map ++ ['}']) := by
        unfold printEdge
        rw [if_neg hn', if_pos hf]
      have he : edgeText e = "{arrow:".toList ++ printBool e.arrow ++ ",map:".toList ++
          printMap TextSym.print printSize e.map ++ ['}'] := by
        unfold edgeText
        rw [hp]
        rfl
      refine ⟨by rw [hp, he], ?_, ?_⟩
      · intro c rest hc
        rw [he]
        unfold scanEdge
        rw [if_neg hn', if_pos hf]
        have e1 : "{arrow:".toList ++ printBool e.arrow ++ ",map:".toList ++
            printMap TextSym.print printSize e.map ++ ['}'] ++ c :: rest = "{arrow".toList ++ ':' ::
            (printBool e.arrow ++ ',' :: ("map:".toList ++ printMap TextSym.print printSize e.map ++
              '}' :: c :: rest)) := by simp
        have h2 := scansTo_bool e.arrow ',' ("map:".toList ++ printMap TextSym.print printSize e.map ++
              '}' :: c :: rest) (by unfold NotDigit; decide)
        simp only [Outcome.ok.injEq] at h2
        rw [e1, ignoreTo_append ':' _ _ (by decide), h2]
        simp only
        have h3 := scanMap_edge h (',' :: "map:".toList) ('}' :: c :: rest) (by decide)
        rw [List.cons_append, List.cons_append] at h3
        rw [h3]
        simp only [Outcome.bind, ignoreTo_head]
      · exact ⟨'{', _, by rw [he]; rfl, by decide⟩
    | false =>
      have hf' : ¬ TatSym.isFermi σ = true := by rw [hf]; exact Bool.false_ne_true
      have hp : printEdge e = .ok (printMap TextSym.print printSize e.map) := by
        unfold printEdge
        rw [if_neg hn', if_neg hf']
      have he : edgeText e = printMap TextSym.print printSize e.map := by
        unfold edgeText
        rw [hp]
        rfl
      refine ⟨by rw [hp, he], ?_, ?_⟩
      · intro c rest hc
        rw [he]
        unfold scanEdge
        rw [if_neg hn', if_neg hf']
        have h3 := scanMap_edge h [] (c :: rest) (by simp)
        rw [List.nil_append] at h3
        rw [h3]
        have ha := h.arrow hf
        obtain ⟨a, m⟩ := e
        simp only at ha
        rw [ha]
        rfl
      · exact ⟨'{', _, by rw [he]; rfl, by decide⟩

theorem printEdges_ok [TatSym σ] [TextSym σ] (hl : TatSym.isNoSym σ = false → LawfulText σ)
    (l : List (Edge σ)) (h : ∀ e ∈ l, EdgeIo e) : printEdges l = .ok (l.map edgeText) := by
  induction l with
  | nil => rfl
  | cons e l ih =>
    unfold printEdges
    rw [(edge_reads hl (h e List.mem_cons_self)).1, ih fun x hx => h x (List.mem_cons_of_mem _ hx)]
    rfl

/-! ## Tensors -/

/-- The text of a key of a block, colours included, is read as that key. -/
def KeyReads [TextSym σ] (C : Colours) (key : List σ) : Prop :=
  ∀ rest, ∃ r, scanVector (fun s => .ok (TextSym.scan s))
    (some (C.yellow ++ printVector TextSym.print key ++ C.origin ++ ':' :: rest)) = .ok (key, r) ∧
      ignoreTo ':' r = some rest

/-- Colour codes do not contain a colon. -/
structure ColoursOk (C : Colours) : Prop where
  green : ':' ∉ C.green
  origin : ':' ∉ C.origin
  yellow : ∀ r, C.yellow ≠ '}' :: r

theorem console_ok : ColoursOk console :=
  ⟨by decide, by decide, fun r h => absurd (congrArg (fun l => l.head?) h) (by simp [console])⟩

theorem plain_ok : ColoursOk plain := ⟨by decide, by decide, fun r h => by cases h⟩

theorem ignoreTo_title {C : Colours} (hC : ColoursOk C) (c : Char) (hc : c ≠ ':') (title : String)
    (ht : ':' ∉ title.toList) (rest : List Char) :
    ignoreTo ':' (some (c :: titleText C title ++ rest)) = some rest := by
  have e : c :: titleText C title ++ rest = (c :: C.green ++ title.toList ++ C.origin) ++ ':' :: rest := by
    simp [titleText]
  rw [e, ignoreTo_append]
  simp only [List.cons_append, List.mem_cons, List.mem_append, not_or]
  exact ⟨fun h => hc h.symm, ⟨hC.green, ht⟩, hC.origin⟩

theorem scanVector_scalars {A : TextScalar α} {exact : α → Prop} (hA : LawfulScalar A exact) (l : List α)
    (h : ∀ x ∈ l, exact x) (pre rest : List Char) (hp : '[' ∉ pre) :
    scanVector (fun s => .ok (A.scan s)) (some (pre ++ printVector A.print l ++ rest)) = .ok (l, some rest) := by
  refine scanVector_print l (fun x hx => hA.scans x (h x hx)) (fun x hx r => ?_) ?_ pre rest hp
  · obtain ⟨a, l, h1, h2⟩ := hA.head x (h x hx)
    rw [h1]
    intro e
    cases e
    exact h2 rfl
  · intro e
    obtain ⟨x, rfl, hx⟩ := List.map_eq_singleton_iff.1 e
    obtain ⟨a, l, h1, h2⟩ := hA.head x (h x List.mem_cons_self)
    rw [h1] at hx
    cases hx

/-- A tensor that can be printed and read: as for a binary dump, the names are valid and there is not just
one empty name, and the scalars are printed exactly. -/
structure Printable [TatSym σ] (exact : α → Prop) (t : Tensor (List Char) σ α) : Prop extends Dumpable t where
  names : ∀ n ∈ t.names, ValidName n
  notEmpty : t.names ≠ [[]]
  scalars : ∀ b ∈ t.core.blocks, ∀ x ∈ b.2, exact x

theorem blocks_read [TatSym σ] [TextSym σ] {C : Colours} (hC : ColoursOk C) {A : TextScalar α}
    {exact : α → Prop} (hA : LawfulScalar A exact) {t : Tensor (List Char) σ α} (h : Printable exact t)
    (hk : TatSym.isNoSym σ = false → ∀ b ∈ t.core.blocks, KeyReads C b.1) :
    ∃ text, printBlocks C A t.core.blocks = .ok text ∧
      ∀ rest, scanBlocks A t.names.length (some (text ++ rest)) = .ok (t.core.blocks, some rest) := by
  cases hn : TatSym.isNoSym σ with
  | true =>
    obtain ⟨data, hd⟩ := h.toDumpable.single hn
    refine ⟨printVector A.print data, ?_, fun rest => ?_⟩
    · unfold printBlocks
      rw [if_pos hn, hd]
    · unfold scanBlocks
      have := scanVector_scalars hA data (fun x hx => h.scalars _ (by rw [hd]; exact List.mem_cons_self) x hx)
        [] rest (by simp)
      rw [List.nil_append] at this
      rw [if_pos hn, this, hd]
      rfl
  | false =>
    have hn' : ¬ TatSym.isNoSym σ = true := by rw [hn]; exact Bool.false_ne_true
    refine ⟨_, by unfold printBlocks; rw [if_neg hn'], fun rest => ?_⟩
    unfold scanBlocks
    rw [if_neg hn']
    have := scanMap_print (scanKey := scanVector fun s => .ok (TextSym.scan s : σ × TextIn))
      (scanVal := scanVector fun s => .ok (A.scan s))
      (printKey := fun k => C.yellow ++ printVector TextSym.print k ++ C.origin) (printVal := printVector A.print)
      t.core.blocks h.wf.blocksSorted (fun b hb => hk hn b hb) (fun b hb c rest _ => by
        have := scanVector_scalars hA b.2 (h.scalars b hb) [] (c :: rest) (by simp)
        rw [List.nil_append] at this
        rw [this]) (fun b _ r => by
          cases hy : C.yellow with
          | nil => exact fun e => by cases e
          | cons a l =>
            intro e
            refine hC.yellow l ?_
            rw [hy]
            simp only [List.cons_append] at e
            rw [(List.cons.inj e).1]) [] rest (by simp)
    rw [List.nil_append] at this
    exact this

theorem scan_names (names : List (List Char)) (h : ∀ n ∈ names, ValidName n) (he : names ≠ [[]])
    (rest : List Char) :
    scanVector scanName (some (printVector id names ++ rest)) = .ok (names, some rest) := by
  have hnames := scanVector_print (scan := scanName) (print := id) names
    (fun n hn => (scansTo_name (h n hn)).mono fun c hc => by rcases hc with rfl | rfl <;> decide)
    (fun n hn r e => by
      have := (h n hn).chars ']' (by rw [id] at e; rw [e]; exact List.mem_cons_self)
      exact absurd this (by decide))
    (by rw [List.map_id]; exact he) [] rest (by simp)
  rw [List.nil_append] at hnames
  exact hnames

theorem scan_edges [TatSym σ] [TextSym σ] (hl : TatSym.isNoSym σ = false → LawfulText σ)
    (edges : List (Edge σ)) (h : ∀ e ∈ edges, EdgeIo e) (rest : List Char) :
    scanVector scanEdge (some (printVector edgeText edges ++ rest)) = .ok (edges, some rest) := by
  have hedges := scanVector_print (scan := scanEdge) (print := edgeText) edges
    (fun e he => (edge_reads hl (h e he)).2.1)
    (fun e he r hr => by
      obtain ⟨a, l, h1, h2⟩ := (edge_reads hl (h e he)).2.2
      rw [h1] at hr
      exact h2 (List.cons.inj hr).1)
    (by
      intro e
      obtain ⟨x, hm, hx⟩ := List.map_eq_singleton_iff.1 e
      obtain ⟨a, l, h1, h2⟩ := (edge_reads hl (h x (by rw [hm]; exact List.mem_cons_self))).2.2
      rw [h1] at hx
      cases hx) [] rest (by simp)
  rw [List.nil_append] at hedges
  exact hedges

theorem tensor_read [TatSym σ] [TextSym σ] {C : Colours} (hC : ColoursOk C)
    (hl : TatSym.isNoSym σ = false → LawfulText σ) {A : TextScalar α}
    {exact : α → Prop} (hA : LawfulScalar A exact) {t : Tensor (List Char) σ α} (h : Printable exact t)
    (hk : TatSym.isNoSym σ = false → ∀ b ∈ t.core.blocks, KeyReads C b.1) :
    ∃ text, printTensor C A t = .ok text ∧
      ∀ rest, scanTensor A (some (text ++ rest)) = .ok (t, some rest) := by
  obtain ⟨bt, hb1, hb2⟩ := blocks_read hC hA h hk
  refine ⟨_, by unfold printTensor; rw [printEdges_ok hl _ h.edges, hb1]; rfl, fun rest => ?_⟩
  have e1 : '{' :: titleText C "names" ++ printVector id t.names ++
    ',' :: titleText C "edges" ++ printVector id (t.core.edges.map edgeText) ++
    ',' :: titleText C "blocks" ++ bt ++ ['}'] ++ rest =
      '{' :: titleText C "names" ++ (printVector id t.names ++ (',' :: titleText C "edges" ++
        (printVector edgeText t.core.edges ++ (',' :: titleText C "blocks" ++ (bt ++ '}' :: rest))))) := by
    have : printVector id (t.core.edges.map edgeText) = printVector edgeText t.core.edges := by
      unfold printVector
      rw [List.map_map]
      rfl
    rw [this]
    simp
  rw [e1]
  unfold scanTensor
  rw [ignoreTo_title hC '{' (by decide) "names" (by decide), scan_names t.names h.names h.notEmpty]
  simp only [Outcome.bind]
  rw [ignoreTo_title hC ',' (by decide) "edges" (by decide), scan_edges hl t.core.edges h.edges]
  simp only
  have hcheck : checkValidName t.names t.core.edges.length = .ok () :=
    (checkValidName_ok _ _).2 ⟨h.wf.rank, h.wf.nodup⟩
  rw [hcheck]
  simp only
  rw [ignoreTo_title hC ',' (by decide) "blocks" (by decide), hb2]
  simp only [ignoreTo_head]

end TAT
