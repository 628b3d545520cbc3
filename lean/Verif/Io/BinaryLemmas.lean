import Verif.Io.Binary
import Verif.Tensor.Lemmas
import Mathlib.Algebra.Order.Ring.Nat
import Mathlib.Tactic.Ring

/-!
# Reading back what was written
-/

namespace TAT

variable {ν σ α : Type}

/-- What is written is appended, and reading it gives the object back and leaves what follows. -/
def ReadsBack {τ : Type} (put : List Byte → τ → List Byte) (get : List Byte → Outcome (τ × List Byte))
    (x : τ) : Prop :=
  ∀ out, ∃ d, put out x = out ++ d ∧ ∀ rest, get (d ++ rest) = .ok (x, rest)

/-- The memory of an object determines it, whatever the padding is. -/
class LawfulBin (τ : Type) [BinData τ] : Prop where
  length_bytes : ∀ (pad : ℕ → Byte) (x : τ), (BinData.bytes pad x).length = BinData.size τ
  parse_bytes : ∀ (pad : ℕ → Byte) (x : τ), BinData.parse (BinData.bytes pad x) = .ok x

theorem length_bytesOf (n x : ℕ) : (bytesOf n x).length = n := by
  induction n generalizing x with
  | zero => rfl
  | succ n ih => simp [bytesOf, ih]

theorem ofBytes_bytesOf (n x : ℕ) : ofBytes (bytesOf n x) = x % 256 ^ n := by
  induction n generalizing x with
  | zero => simp [bytesOf, ofBytes, Nat.mod_one]
  | succ n ih =>
    rw [bytesOf, ofBytes, ih, BitVec.toNat_ofNat, pow_succ 256, Nat.mul_comm (256 ^ n) 256, Nat.mod_mul]

instance : LawfulBin Bool where
  length_bytes _ _ := rfl
  parse_bytes _ b := by cases b <;> rfl

theorem intData_length (n : ℕ) (x : BitVec (8 * n)) (pad : ℕ → Byte) :
    ((intData n).bytes pad x).length = n := length_bytesOf _ _

theorem intData_parse (n : ℕ) (x : BitVec (8 * n)) (pad : ℕ → Byte) :
    (intData n).parse ((intData n).bytes pad x) = .ok x := by
  show Outcome.ok (BitVec.ofNat (8 * n) (ofBytes (bytesOf n x.toNat))) = .ok x
  rw [ofBytes_bytesOf, Nat.mod_eq_of_lt, BitVec.ofNat_toNat, BitVec.setWidth_eq]
  have := x.isLt
  rwa [pow_mul] at this

instance : LawfulBin (BitVec 16) := ⟨fun pad x => intData_length 2 x pad, fun pad x => intData_parse 2 x pad⟩
instance : LawfulBin (BitVec 32) := ⟨fun pad x => intData_length 4 x pad, fun pad x => intData_parse 4 x pad⟩
instance : LawfulBin (BitVec 64) := ⟨fun pad x => intData_length 8 x pad, fun pad x => intData_parse 8 x pad⟩
instance : LawfulBin (BitVec 128) := ⟨fun pad x => intData_length 16 x pad, fun pad x => intData_parse 16 x pad⟩

instance : LawfulBin NoSymmetry := ⟨fun _ _ => rfl, fun _ _ => rfl⟩

instance : LawfulBin Z2Symmetry where
  length_bytes _ _ := rfl
  parse_bytes pad s := by
    show (BinData.parse (BinData.bytes pad s.z2) : Outcome Bool).bind _ = _
    rw [LawfulBin.parse_bytes]; rfl

instance : LawfulBin U1Symmetry where
  length_bytes pad s := LawfulBin.length_bytes pad s.u1
  parse_bytes pad s := by
    show (BinData.parse (BinData.bytes pad s.u1) : Outcome U1).bind _ = _
    rw [LawfulBin.parse_bytes]; rfl

instance : LawfulBin FermiSymmetry where
  length_bytes pad s := LawfulBin.length_bytes pad s.fermi
  parse_bytes pad s := by
    show (BinData.parse (BinData.bytes pad s.fermi) : Outcome Fermi).bind _ = _
    rw [LawfulBin.parse_bytes]; rfl

instance : LawfulBin FermiZ2Symmetry where
  length_bytes pad s := by
    show (BinData.bytes pad s.fermi ++ BinData.bytes pad s.z2 ++ [pad 3]).length = 4
    rw [List.length_append, List.length_append, LawfulBin.length_bytes, LawfulBin.length_bytes]
    rfl
  parse_bytes pad s := by
    have h1 : (BinData.bytes pad s.fermi).length = 2 := LawfulBin.length_bytes pad s.fermi
    have h2 : (BinData.bytes pad s.z2).length = 1 := LawfulBin.length_bytes pad s.z2
    show (BinData.parse ((BinData.bytes pad s.fermi ++ BinData.bytes pad s.z2 ++ [pad 3]).take 2) :
      Outcome Fermi).bind (fun f => (BinData.parse (((BinData.bytes pad s.fermi ++
        BinData.bytes pad s.z2 ++ [pad 3]).drop 2).take 1) : Outcome Bool).bind fun b => .ok (⟨f, b⟩ : FermiZ2Symmetry)) = _
    rw [List.append_assoc, List.take_left' h1, List.drop_left' h1, List.take_left' h2,
      LawfulBin.parse_bytes, LawfulBin.parse_bytes]
    rfl

instance : LawfulBin FermiU1Symmetry where
  length_bytes pad s := by
    show (BinData.bytes pad s.fermi ++ [pad 2, pad 3] ++ BinData.bytes pad s.u1).length = 8
    rw [List.length_append, List.length_append, LawfulBin.length_bytes, LawfulBin.length_bytes]
    rfl
  parse_bytes pad s := by
    have h1 : (BinData.bytes pad s.fermi).length = 2 := LawfulBin.length_bytes pad s.fermi
    have h2 : (BinData.bytes pad s.fermi ++ [pad 2, pad 3]).length = 4 := by simp [h1]
    show (BinData.parse ((BinData.bytes pad s.fermi ++ [pad 2, pad 3] ++ BinData.bytes pad s.u1).take 2) :
      Outcome Fermi).bind (fun f => (BinData.parse ((BinData.bytes pad s.fermi ++ [pad 2, pad 3] ++
        BinData.bytes pad s.u1).drop 4) : Outcome U1).bind fun u => .ok (⟨f, u⟩ : FermiU1Symmetry)) = _
    rw [List.drop_left' h2, List.append_assoc, List.take_left' h1,
      LawfulBin.parse_bytes, LawfulBin.parse_bytes]
    rfl

theorem readsBack_data {τ : Type} [BinData τ] [LawfulBin τ] (pad : ℕ → Byte) (x : τ) :
    ReadsBack (putData pad) getData x := by
  intro out
  refine ⟨_, rfl, fun rest => ?_⟩
  have h := LawfulBin.length_bytes (fun i => pad (out.length + i)) x
  unfold getData
  rw [if_neg (by rw [List.length_append, h]; omega), List.take_left' h, List.drop_left' h,
    LawfulBin.parse_bytes]
  rfl

theorem readsBack_size {n : ℕ} (h : n < 2 ^ 64) : ReadsBack putSize getSize n := by
  intro out
  refine ⟨_, rfl, fun rest => ?_⟩
  have h8 := length_bytesOf 8 n
  unfold getSize
  rw [if_neg (by rw [List.length_append, h8]; omega), List.take_left' h8, List.drop_left' h8,
    ofBytes_bytesOf, Nat.mod_eq_of_lt (by simpa using h)]

theorem readsBack_fastName {n : ℕ} (h : n < 2 ^ 32) : ReadsBack fastNameIO.put fastNameIO.get n := by
  intro out
  refine ⟨_, rfl, fun rest => ?_⟩
  have h4 := length_bytesOf 4 n
  unfold fastNameIO
  dsimp only
  rw [if_neg (by rw [List.length_append, h4]; omega), List.take_left' h4, List.drop_left' h4,
    ofBytes_bytesOf, Nat.mod_eq_of_lt (by simpa using h)]

theorem readsBack_string {s : List Byte} (h : s.length < 2 ^ 64) : ReadsBack putString getString s := by
  intro out
  obtain ⟨d, h1, h2⟩ := readsBack_size h out
  refine ⟨d ++ s, ?_, fun rest => ?_⟩
  · unfold putString
    rw [h1, List.append_assoc]
  · unfold getString
    rw [List.append_assoc, h2]
    simp only [Outcome.bind]
    rw [if_neg (by rw [List.length_append]; omega), List.take_left, List.drop_left]

theorem readsBack_all {τ : Type} {put : List Byte → τ → List Byte}
    {get : List Byte → Outcome (τ × List Byte)} (l : List τ) (h : ∀ x ∈ l, ReadsBack put get x) (out) :
    ∃ d, putAll put out l = out ++ d ∧ ∀ rest, getAll get l.length (d ++ rest) = .ok (l, rest) := by
  induction l generalizing out with
  | nil => exact ⟨[], (List.append_nil _).symm, fun _ => rfl⟩
  | cons x l ih =>
    obtain ⟨d1, h1, h2⟩ := h x List.mem_cons_self out
    obtain ⟨d2, h3, h4⟩ := ih (fun y hy => h y (List.mem_cons_of_mem _ hy)) (put out x)
    refine ⟨d1 ++ d2, ?_, fun rest => ?_⟩
    · show putAll put (put out x) l = _
      rw [h3, h1, List.append_assoc]
    · rw [List.append_assoc, List.length_cons, getAll, h2]
      show (getAll get l.length (d2 ++ rest)).bind _ = _
      rw [h4]
      rfl

theorem readsBack_vector {τ : Type} {put : List Byte → τ → List Byte}
    {get : List Byte → Outcome (τ × List Byte)} {l : List τ} (hl : l.length < 2 ^ 64)
    (h : ∀ x ∈ l, ReadsBack put get x) : ReadsBack (putVector put) (getVector get) l := by
  intro out
  obtain ⟨d1, h1, h2⟩ := readsBack_size hl out
  obtain ⟨d2, h3, h4⟩ := readsBack_all l h (putSize out l.length)
  refine ⟨d1 ++ d2, ?_, fun rest => ?_⟩
  · unfold putVector
    rw [h3, h1, List.append_assoc]
  · unfold getVector
    rw [List.append_assoc, h2]
    exact h4 rest

theorem readsBack_map {κ β : Type} [LinearOrder κ] {putKey : List Byte → κ → List Byte}
    {putVal : List Byte → β → List Byte} {getKey : List Byte → Outcome (κ × List Byte)}
    {getVal : List Byte → Outcome (β × List Byte)} {m : List (κ × β)} (hs : OMap.Sorted m)
    (hl : m.length < 2 ^ 64) (hk : ∀ e ∈ m, ReadsBack putKey getKey e.1)
    (hv : ∀ e ∈ m, ReadsBack putVal getVal e.2) :
    ReadsBack (putMap putKey putVal) (getMap getKey getVal) m := by
  intro out
  obtain ⟨d1, h1, h2⟩ := readsBack_size hl out
  obtain ⟨d2, h3, h4⟩ := readsBack_all (put := fun out e => putVal (putKey out e.1) e.2)
    (get := getEntry getKey getVal) m (by
      intro e he out
      obtain ⟨d1, h1, h2⟩ := hk e he out
      obtain ⟨d2, h3, h4⟩ := hv e he (putKey out e.1)
      refine ⟨d1 ++ d2, ?_, fun rest => ?_⟩
      · dsimp only
        rw [h3, h1, List.append_assoc]
      · unfold getEntry
        rw [List.append_assoc, h2]
        show (getVal (d2 ++ rest)).bind _ = _
        rw [h4]
        rfl) (putSize out m.length)
  refine ⟨d1 ++ d2, ?_, fun rest => ?_⟩
  · unfold putMap
    rw [h3, h1, List.append_assoc]
  · unfold getMap
    rw [List.append_assoc, h2]
    show (getAll _ m.length (d2 ++ rest)).bind _ = _
    rw [h4]
    show Outcome.ok (OMap.ofList m, rest) = _
    rw [OMap.ofList_sorted hs]

/-- An edge that can be written: the numbers fit, bosonic edges have no arrow, and without symmetry there
is one dimension. -/
structure EdgeIo [TatSym σ] (e : Edge σ) : Prop where
  sorted : OMap.Sorted e.map
  count : e.map.length < 2 ^ 64
  dims : ∀ x ∈ e.map, x.2 < 2 ^ 64
  arrow : TatSym.isFermi σ = false → e.arrow = false
  noSym : TatSym.isNoSym σ = true → e.map ≠ []

theorem noSym_map_single [TatSym σ] (hn : TatSym.isNoSym σ = true) {m : List (σ × ℕ)} (hs : OMap.Sorted m)
    (h : m ≠ []) : ∃ d, m = [(0, d)] := by
  match m, h with
  | [x], _ => exact ⟨x.2, by rw [← TatSym.noSym_eq hn x.1 0]⟩
  | x :: y :: m, _ =>
    unfold OMap.Sorted at hs
    simp only [List.map_cons, List.pairwise_cons, List.mem_cons] at hs
    have := hs.1 y.1 (Or.inl rfl)
    rw [TatSym.noSym_eq hn x.1 y.1] at this
    exact absurd this (lt_irrefl _)

theorem readsBack_edge [TatSym σ] [BinData σ] [LawfulBin σ] (pad : ℕ → Byte) {e : Edge σ} (h : EdgeIo e) :
    ReadsBack (putEdge pad) getEdge e := by
  intro out
  cases hn : TatSym.isNoSym σ with
  | true =>
    obtain ⟨d, hd⟩ := noSym_map_single hn h.sorted (h.noSym hn)
    have hlt : d < 2 ^ 64 := h.dims (0, d) (by rw [hd]; exact List.mem_cons_self)
    obtain ⟨x, h1, h2⟩ := readsBack_size hlt out
    refine ⟨x, ?_, fun rest => ?_⟩
    · unfold putEdge
      rw [if_pos hn, hd]
      exact h1
    · unfold getEdge
      rw [if_pos hn, h2]
      have := h.arrow (TatSym.noSym_bose hn)
      obtain ⟨a, m⟩ := e
      simp only at hd this
      rw [hd, this]
      rfl
  | false =>
    have hmap := readsBack_map (putKey := putData pad) (putVal := putSize) (getKey := getData)
      (getVal := getSize) h.sorted h.count (fun x _ => readsBack_data pad x.1)
      (fun x hx => readsBack_size (h.dims x hx))
    cases hf : TatSym.isFermi σ with
    | true =>
      obtain ⟨d1, h1, h2⟩ := readsBack_data pad e.arrow out
      obtain ⟨d2, h3, h4⟩ := hmap (putData pad out e.arrow)
      refine ⟨d1 ++ d2, ?_, fun rest => ?_⟩
      · unfold putEdge
        rw [if_neg (by rw [hn]; exact Bool.false_ne_true), if_pos hf, h3, h1, List.append_assoc]
      · unfold getEdge
        rw [if_neg (by rw [hn]; exact Bool.false_ne_true), if_pos hf, List.append_assoc, h2]
        show (getMap getData getSize (d2 ++ rest)).bind _ = _
        rw [h4]
        rfl
    | false =>
      obtain ⟨d2, h3, h4⟩ := hmap out
      refine ⟨d2, ?_, fun rest => ?_⟩
      · unfold putEdge
        rw [if_neg (by rw [hn]; exact Bool.false_ne_true), if_neg (by rw [hf]; exact Bool.false_ne_true), h3]
      · unfold getEdge
        rw [if_neg (by rw [hn]; exact Bool.false_ne_true), if_neg (by rw [hf]; exact Bool.false_ne_true), h4]
        have := h.arrow hf
        obtain ⟨a, m⟩ := e
        simp only at this
        rw [this]
        rfl

end TAT
