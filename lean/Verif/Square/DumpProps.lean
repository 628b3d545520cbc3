import Verif.Square.DumpLemmas
import Mathlib.Data.List.Lex
import Mathlib.Data.Prod.Lex
import Mathlib.Order.Lattice

/-!
# C60: lattices are read back
-/

namespace TAT

section

variable {ν α β : Type} [LinearOrder (List Pos32)]

/-- What a lattice is, apart from the addresses: sizes, the operator of each term, and which terms share one
tensor. -/
structure SameLattice (L L' : LatticeBase ν α) : Prop where
  M : L'.M = L.M
  N : L'.N = L.N
  d : L'.d = L.d
  keys : OMap.keys L'.hams = OMap.keys L.hams
  term : ∀ k, (OMap.find? L'.hams k).bind L'.heap = (OMap.find? L.hams k).bind L.heap
  shared : ∀ k k' a a' b b', OMap.find? L.hams k = some a → OMap.find? L.hams k' = some a' →
    OMap.find? L'.hams k = some b → OMap.find? L'.hams k' = some b' → (b = b' ↔ a = a')

/-- A tensor that can be dumped with these names. -/
def TensorDumpable (io : NameIO ν) (t : Tensor ν NoSymmetry α) : Prop :=
  Dumpable t ∧ ∀ n ∈ t.names, ReadsBack io.put io.get n

/-- A lattice that can be dumped: no pointer is null, the numbers fit. -/
structure LatticeDumpable (io : NameIO ν) (L : LatticeBase ν α) : Prop where
  d : L.d < 2 ^ 64
  sorted : OMap.Sorted L.hams
  count : L.hams.length < 2 ^ 31
  terms : ∀ e ∈ L.hams, e.1.length < 2 ^ 64 ∧ ∃ t, L.heap e.2 = some t ∧ TensorDumpable io t

theorem dumps_term (pad : ℕ → Byte) (pool : ℕ) (e : List Pos32 × ℕ) (hk : e.1.length < 2 ^ 64)
    (hi : e.2 < pool) (hp : pool < 2 ^ 31) :
    Dumps (fun out => Outcome.ok (putData pad (putVector (putData pad) out e.1) (BitVec.ofNat 32 e.2)))
      (getTerm pool) e := by
  have h1 := (readsBack_vector (put := putData pad) (get := getData) hk
    fun x _ => readsBack_data pad x).dumps
  have h2 := (readsBack_data pad (BitVec.ofNat 32 e.2)).dumps
  have hn : (BitVec.ofNat 32 e.2).toNat = e.2 := by
    rw [BitVec.toNat_ofNat, Nat.mod_eq_of_lt (by omega)]
  have ht : (BitVec.ofNat 32 e.2).toInt = e.2 := by
    rw [BitVec.toInt_eq_toNat_of_lt (by omega), hn]
  intro out
  obtain ⟨x1, p1, g1⟩ := h1 out
  obtain ⟨x2, p2, g2⟩ := h2 (out ++ x1)
  have p1 := Outcome.ok.inj p1
  have p2 := Outcome.ok.inj p2
  refine ⟨x1 ++ x2, ?_, fun rest => ?_⟩
  · show Outcome.ok (putData pad (putVector (putData pad) out e.1) (BitVec.ofNat 32 e.2)) = _
    rw [p1, p2, List.append_assoc]
  · rw [getTerm, List.append_assoc, g1, Outcome.bind, g2, Outcome.bind, ht, hn, if_pos (by omega)]

/-- Writing that cannot fail. -/
theorem putAllM_ok {τ : Type} (put : List Byte → τ → List Byte) (l : List τ) (out : List Byte) :
    putAllM (fun out x => .ok (put out x)) l out = .ok (putAll put out l) := by
  induction l generalizing out with
  | nil => rfl
  | cons x l ih => exact ih _

theorem dumps_lattice [DecidableEq ν] [BinData α] [LawfulBin α] (io : NameIO ν) (pad : ℕ → Byte)
    (L : LatticeBase ν α) (h : LatticeDumpable io L) :
    ∃ L', SameLattice L L' ∧ Dumps (fun out => putLattice io pad out L) (getLattice io) L' := by
  obtain ⟨pool, h1, h2, h3, h4⟩ := pool_spec L.hams h.sorted
  have hheap : ∀ a ∈ pool, ∃ t, L.heap a = some t ∧ TensorDumpable io t := by
    intro a ha
    obtain ⟨k, hk⟩ := (h2 a).1 ha
    exact (h.terms _ hk).2
  let t0 : Tensor ν NoSymmetry α := ⟨[], [], []⟩
  let f : ℕ → Tensor ν NoSymmetry α := fun a => (L.heap a).getD t0
  have hf : ∀ a ∈ pool, L.heap a = some (f a) ∧ TensorDumpable io (f a) := by
    intro a ha
    obtain ⟨t, e1, e2⟩ := hheap a ha
    have : f a = t := by
      show (L.heap a).getD t0 = t
      rw [e1]
      rfl
    rw [this]
    exact ⟨e1, e2⟩
  let hams' := L.hams.map fun e => (e.1, pool.idxOf e.2)
  have hmem : ∀ e ∈ L.hams, e.2 ∈ pool := fun e he => (h2 _).2 ⟨e.1, he⟩
  have hkeys : OMap.keys hams' = OMap.keys L.hams := by
    show ((L.hams.map fun e => (e.1, pool.idxOf e.2))).map Prod.fst = L.hams.map Prod.fst
    rw [List.map_map]
    rfl
  have hsorted : OMap.Sorted hams' := by
    have : (hams'.map Prod.fst) = L.hams.map Prod.fst := hkeys
    rw [OMap.Sorted, this]
    exact h.sorted
  have hfind : ∀ k, OMap.find? hams' k = (OMap.find? L.hams k).map fun a => pool.idxOf a := by
    intro k
    exact OMap.find?_map_val L.hams (fun _ a => pool.idxOf a) k
  refine ⟨⟨L.M, L.N, L.d, fun i => (pool.map f)[i]?, hams'⟩, ⟨rfl, rfl, rfl, hkeys, ?_, ?_⟩, ?_⟩
  · intro k
    show (OMap.find? hams' k).bind (fun i => (pool.map f)[i]?) = _
    rw [hfind]
    cases hk : OMap.find? L.hams k with
    | none => rfl
    | some a =>
      have ha := hmem _ (OMap.mem_of_find? hk)
      show (pool.map f)[pool.idxOf a]? = L.heap a
      rw [List.getElem?_map, List.getElem?_idxOf ha, (hf a ha).1]
      rfl
  · intro k k' a a' b b' e1 e2 e3 e4
    change OMap.find? hams' k = some b at e3
    change OMap.find? hams' k' = some b' at e4
    rw [hfind, e1] at e3
    rw [hfind, e2] at e4
    obtain rfl := Option.some.inj e3
    obtain rfl := Option.some.inj e4
    exact List.idxOf_inj (hmem _ (OMap.mem_of_find? e1))
  · have d1 := (readsBack_data pad L.M).dumps
    have d2 := (readsBack_data pad L.N).dumps
    have d3 := (readsBack_size h.d).dumps
    have d4 := dumps_vector (put := putPointer io pad L.heap) (get := getTensor io) f pool
      (by have := h.count; omega) (by
        intro a ha out
        obtain ⟨e1, e2, e3⟩ := hf a ha
        obtain ⟨d, g1, g2⟩ := readsBack_tensor io pad (f a) e2 e3 out
        refine ⟨d, ?_, g2⟩
        show putPointer io pad L.heap out a = _
        rw [putPointer, e1]
        exact g1)
    have d5 := dumps_vector' (put := fun out (e : List Pos32 × ℕ) =>
        Outcome.ok (putData pad (putVector (putData pad) out e.1) (BitVec.ofNat 32 e.2)))
      (get := getTerm pool.length) hams' (by
        have := h.count
        rw [List.length_map]
        omega) (by
        intro e he
        obtain ⟨x, hx, rfl⟩ := List.mem_map.1 he
        exact dumps_term pad pool.length _ (h.terms x hx).1 (List.idxOf_lt_length_of_mem (hmem x hx))
          (by have := h.count; omega))
    intro out
    obtain ⟨x1, p1, g1⟩ := d1 out
    obtain ⟨x2, p2, g2⟩ := d2 (out ++ x1)
    obtain ⟨x3, p3, g3⟩ := d3 (out ++ x1 ++ x2)
    obtain ⟨x4, p4, g4⟩ := d4 (out ++ x1 ++ x2 ++ x3)
    obtain ⟨x5, p5, g5⟩ := d5 (out ++ x1 ++ x2 ++ x3 ++ x4)
    have p1 := Outcome.ok.inj p1
    have p2 := Outcome.ok.inj p2
    have p3 := Outcome.ok.inj p3
    change putVectorM (putPointer io pad L.heap) (out ++ x1 ++ x2 ++ x3) pool = _ at p4
    change putAllM _ hams' (putSize _ hams'.length) = _ at p5
    rw [putAllM_ok] at p5
    refine ⟨x1 ++ x2 ++ x3 ++ x4 ++ x5, ?_, fun rest => ?_⟩
    · show putLattice io pad out L = _
      rw [putLattice, h4, p1, p2, p3, p4, Outcome.bind]
      have := Outcome.ok.inj p5
      rw [show out ++ (x1 ++ x2 ++ x3 ++ x4 ++ x5) = out ++ x1 ++ x2 ++ x3 ++ x4 ++ x5 by
        simp only [List.append_assoc], ← this]
    · have g5 := g5 rest
      rw [← List.length_map f] at g5
      rw [getLattice]
      simp only [List.append_assoc]
      rw [g1, Outcome.bind, g2, Outcome.bind, g3, Outcome.bind, g4, Outcome.bind, g5, Outcome.bind]
      rw [OMap.ofList_sorted hsorted]

/-- **C60.**  A dump of a lattice is read back as the same lattice, with the same operators shared. -/
theorem C60_lattice [DecidableEq ν] [BinData α] [LawfulBin α] (io : NameIO ν) (pad : ℕ → Byte)
    (L : LatticeBase ν α) (h : LatticeDumpable io L) (out : List Byte) :
    ∃ L', SameLattice L L' ∧ ∃ d, putLattice io pad out L = .ok (out ++ d) ∧
      ∀ rest, getLattice io (d ++ rest) = .ok (L', rest) := by
  obtain ⟨L', h1, h2⟩ := dumps_lattice io pad L h
  exact ⟨L', h1, h2 out⟩

/-! ## Lattices with tensors -/

/-- A network that can be dumped. -/
structure NetworkDumpable (io : NameIO ν) (L : NetworkLattice ν α) : Prop where
  base : LatticeDumpable io L.base
  D : L.D < 2 ^ 64
  rows : L.lattice.length < 2 ^ 64
  columns : ∀ row ∈ L.lattice, row.length < 2 ^ 64 ∧ ∀ t ∈ row, TensorDumpable io t

theorem dumps_network [DecidableEq ν] [BinData α] [LawfulBin α] (io : NameIO ν) (pad : ℕ → Byte)
    (L : NetworkLattice ν α) (h : NetworkDumpable io L) :
    ∃ base, SameLattice L.base base ∧
      Dumps (fun out => putNetwork io pad out L) (getNetwork io) ⟨base, L.D, L.lattice⟩ := by
  obtain ⟨base, h1, h2⟩ := dumps_lattice io pad L.base h.base
  refine ⟨base, h1, ?_⟩
  have d1 := (readsBack_size h.D).dumps
  have d2 := dumps_vector' (put := putVectorM (putTensor io pad)) (get := getVector (getTensor io))
    L.lattice h.rows fun row hrow => dumps_vector' row (h.columns row hrow).1 fun t ht => by
      obtain ⟨e1, e2⟩ := (h.columns row hrow).2 t ht
      exact readsBack_tensor io pad t e1 e2
  intro out
  obtain ⟨x0, p0, g0⟩ := h2 out
  obtain ⟨x1, p1, g1⟩ := d1 (out ++ x0)
  obtain ⟨x2, p2, g2⟩ := d2 (out ++ x0 ++ x1)
  have p1 := Outcome.ok.inj p1
  refine ⟨x0 ++ x1 ++ x2, ?_, fun rest => ?_⟩
  · beta_reduce at p0 p2
    show putNetwork io pad out L = _
    rw [putNetwork, p0, Outcome.bind, p1, p2]
    simp only [List.append_assoc]
  · rw [getNetwork]
    simp only [List.append_assoc]
    rw [g0, Outcome.bind, g1, Outcome.bind, g2, Outcome.bind]

/-- **C60.**  The same for a lattice of tensors. -/
theorem C60_network [DecidableEq ν] [BinData α] [LawfulBin α] (io : NameIO ν) (pad : ℕ → Byte)
    (L : NetworkLattice ν α) (h : NetworkDumpable io L) (out : List Byte) :
    ∃ L', SameLattice L.base L'.base ∧ L'.D = L.D ∧ L'.lattice = L.lattice ∧
      ∃ d, putNetwork io pad out L = .ok (out ++ d) ∧
        ∀ rest, getNetwork io (d ++ rest) = .ok (L', rest) := by
  obtain ⟨base, h1, h2⟩ := dumps_network io pad L h
  exact ⟨⟨base, L.D, L.lattice⟩, h1, rfl, rfl, h2 out⟩

/-- **C60.**  The same for a simple update lattice, with its environments; each environment is what `svd`
gives, one vector. -/
theorem C60_simple_update [DecidableEq ν] [LinearOrder EnvKey] [BinData α] [LawfulBin α] [BinData β]
    [LawfulBin β] (io : NameIO ν) (pad : ℕ → Byte) (L : SimpleLattice ν α β)
    (h : NetworkDumpable io L.network) (hs : OMap.Sorted L.environment)
    (hc : L.environment.length < 2 ^ 64)
    (he : ∀ e ∈ L.environment, ∃ l : List β, e.2 = [(0, l)] ∧ l.length < 2 ^ 64) (out : List Byte) :
    ∃ L', SameLattice L.network.base L'.network.base ∧ L'.network.D = L.network.D ∧
      L'.network.lattice = L.network.lattice ∧ L'.environment = L.environment ∧
      ∃ d, putSimple io pad out L = .ok (out ++ d) ∧
        ∀ rest, getSimple io (d ++ rest) = .ok (L', rest) := by
  obtain ⟨base, h1, h2⟩ := dumps_network io pad L.network h
  have d1 := dumps_vector' (put := fun out (e : EnvKey × List (NoSymmetry × List β)) =>
      putSingular pad (putData pad out e.1) e.2) (get := getEntry getData getSingular) L.environment hc (by
    intro e hm
    obtain ⟨l, e1, e2⟩ := he e hm
    have k1 := (readsBack_data pad e.1).dumps
    have k2 := (readsBack_vector (put := putData pad) (get := getData (τ := β)) e2
      fun x _ => readsBack_data pad x).dumps
    intro out
    obtain ⟨x1, p1, g1⟩ := k1 out
    obtain ⟨x2, p2, g2⟩ := k2 (out ++ x1)
    have p1 := Outcome.ok.inj p1
    have p2 := Outcome.ok.inj p2
    refine ⟨x1 ++ x2, ?_, fun rest => ?_⟩
    · show putSingular pad (putData pad out e.1) e.2 = _
      rw [p1, e1]
      show Outcome.ok (putVector (putData pad) (out ++ x1) l) = _
      rw [p2, List.append_assoc]
    · have g3 : (getSingular (x2 ++ rest) : Outcome (List (NoSymmetry × List β) × List Byte)) =
          .ok ([(0, l)], rest) := by
        show (getVector getData (x2 ++ rest)).bind _ = _
        rw [g2, Outcome.bind]
      rw [getEntry, List.append_assoc, g1, Outcome.bind, g3, Outcome.bind, ← e1])
  refine ⟨⟨⟨base, L.network.D, L.network.lattice⟩, L.environment⟩, h1, rfl, rfl, rfl, ?_⟩
  obtain ⟨x0, p0, g0⟩ := h2 out
  obtain ⟨x1, p1, g1⟩ := d1 (out ++ x0)
  refine ⟨x0 ++ x1, ?_, fun rest => ?_⟩
  · beta_reduce at p0 p1
    rw [putSimple, p0, Outcome.bind, p1, List.append_assoc]
  · rw [getSimple, List.append_assoc, g0, Outcome.bind, g1, Outcome.bind, OMap.ofList_sorted hs]

omit [LinearOrder (List Pos32)] in
/-- Reading all elements of a vector of a known length. -/
theorem mapM_entryAt {τ : Type} (l : List τ) : (List.range l.length).mapM (entryAt l) = .ok l := by
  have main : ∀ (n : ℕ) (l' : List τ), (∀ i < l'.length, l[n + i]? = l'[i]?) →
      ((List.range' n l'.length).mapM (entryAt l)) = .ok l' := by
    intro n l'
    induction l' generalizing n with
    | nil => intro _; rfl
    | cons x l' ih =>
      intro h
      have h0 : entryAt l n = .ok x := by
        have := h 0 (by simp)
        rw [entryAt]
        simp only [Nat.add_zero, List.getElem?_cons_zero] at this
        rw [this]
      rw [List.length_cons, List.range'_succ, List.mapM_cons, h0]
      have := ih (n + 1) (fun i hi => by
        have := h (i + 1) (by simpa using hi)
        rw [show n + 1 + i = n + (i + 1) by omega, this, List.getElem?_cons_succ])
      show (List.mapM (entryAt l) (List.range' (n + 1) l'.length)) >>= _ = _
      rw [this]
      rfl
  rw [List.range_eq_range']
  exact main 0 l fun i _ => by rw [Nat.zero_add]

theorem initializeSpin_eq (M N : BitVec 32) (c : List (List (BitVec 32)))
    (hM : c.length = M.toInt.toNat) (hN : ∀ row ∈ c, row.length = N.toInt.toNat) :
    initializeSpin M N c = .ok c := by
  have h1 : ∀ i ∈ List.range M.toInt.toNat, ((List.range N.toInt.toNat).mapM fun j =>
      (entryAt c i).bind fun row => entryAt row j) = entryAt c i := by
    intro i hi
    rw [List.mem_range, ← hM] at hi
    have e : entryAt c i = .ok c[i] := by
      rw [entryAt, List.getElem?_eq_getElem hi]
    rw [e]
    show ((List.range N.toInt.toNat).mapM fun j => entryAt c[i] j) = _
    rw [← hN _ (List.getElem_mem hi)]
    exact mapM_entryAt _
  rw [initializeSpin]
  have : ∀ l : List ℕ, (∀ i ∈ l, i ∈ List.range M.toInt.toNat) →
      (l.mapM fun i => (List.range N.toInt.toNat).mapM fun j =>
        (entryAt c i).bind fun row => entryAt row j) = l.mapM (entryAt c) := by
    intro l hl
    induction l with
    | nil => rfl
    | cons i l ih =>
      rw [List.mapM_cons, List.mapM_cons, h1 i (hl i (by simp)), ih fun i hi => hl i (by simp [hi])]
  rw [this _ fun i hi => hi, ← hM]
  exact mapM_entryAt c

/-- **C60.**  The same for a sampling lattice with a configuration of spins for all sites. -/
theorem C60_sampling [DecidableEq ν] [BinData α] [LawfulBin α] (io : NameIO ν) (pad : ℕ → Byte)
    (L : SamplingLattice ν α) (h : NetworkDumpable io L.network) (hDc : L.Dc < 2 ^ 64)
    (hM : L.configuration.length = L.network.base.M.toInt.toNat)
    (hN : ∀ row ∈ L.configuration, row.length = L.network.base.N.toInt.toNat) (out : List Byte) :
    ∃ L', SameLattice L.network.base L'.network.base ∧ L'.network.D = L.network.D ∧
      L'.network.lattice = L.network.lattice ∧ L'.Dc = L.Dc ∧ L'.configuration = L.configuration ∧
      ∃ d, putSampling io pad out L = .ok (out ++ d) ∧
        ∀ rest, getSampling io (d ++ rest) = .ok (L', rest) := by
  obtain ⟨base, h1, h2⟩ := dumps_network io pad L.network h
  have hb : ∀ x : BitVec 32, x.toInt.toNat < 2 ^ 64 := by
    intro x
    have := BitVec.toInt_lt (x := x)
    omega
  have d1 := (readsBack_size hDc).dumps
  have d2 := (readsBack_vector (put := putVector (putData pad)) (get := getVector (getData (τ := BitVec 32)))
    (l := L.configuration) (by rw [hM]; exact hb _) fun row hrow =>
      readsBack_vector (by rw [hN row hrow]; exact hb _) fun x _ => readsBack_data pad x).dumps
  refine ⟨⟨⟨base, L.network.D, L.network.lattice⟩, L.Dc, L.configuration⟩, h1, rfl, rfl, rfl, rfl, ?_⟩
  obtain ⟨x0, p0, g0⟩ := h2 out
  obtain ⟨x1, p1, g1⟩ := d1 (out ++ x0)
  obtain ⟨x2, p2, g2⟩ := d2 (out ++ x0 ++ x1)
  have p1 := Outcome.ok.inj p1
  have p2 := Outcome.ok.inj p2
  refine ⟨x0 ++ x1 ++ x2, ?_, fun rest => ?_⟩
  · beta_reduce at p0
    rw [putSampling, p0, Outcome.bind, p1, p2]
    simp only [List.append_assoc]
  · rw [getSampling]
    simp only [List.append_assoc]
    rw [g0, Outcome.bind, g1, Outcome.bind, g2, Outcome.bind]
    dsimp only
    rw [h1.M, h1.N]
    split
    · rename_i he
      have he : L.configuration = [] := List.isEmpty_iff.1 he
      have : L.network.base.M.toInt.toNat = 0 := by rw [← hM, he]; rfl
      rw [this, he]
      rfl
    · rw [initializeSpin_eq _ _ _ hM hN]
      rfl

/-- **C60.**  The same for a state vector. -/
theorem C60_exact [DecidableEq ν] [BinData α] [LawfulBin α] (io : NameIO ν) (pad : ℕ → Byte)
    (L : ExactDump ν α) (h : LatticeDumpable io L.base) (hv : TensorDumpable io L.vector)
    (out : List Byte) :
    ∃ L', SameLattice L.base L'.base ∧ L'.vector = L.vector ∧
      ∃ d, putExact io pad out L = .ok (out ++ d) ∧
        ∀ rest, getExact io (d ++ rest) = .ok (L', rest) := by
  obtain ⟨base, h1, h2⟩ := dumps_lattice io pad L.base h
  refine ⟨⟨base, L.vector⟩, h1, rfl, ?_⟩
  have d1 : Dumps (fun out => putTensor io pad out L.vector) (getTensor io) L.vector :=
    readsBack_tensor io pad L.vector hv.1 hv.2
  obtain ⟨x0, p0, g0⟩ := h2 out
  obtain ⟨x1, p1, g1⟩ := d1 (out ++ x0)
  refine ⟨x0 ++ x1, ?_, fun rest => ?_⟩
  · beta_reduce at p0 p1
    rw [putExact, p0, Outcome.bind, p1, List.append_assoc]
  · rw [getExact, List.append_assoc, g0, Outcome.bind, g1, Outcome.bind]

/-- **C60.**  A null pointer among the terms is undefined behaviour. -/
theorem C60_null_pointer [BinData α] (io : NameIO ν) (pad : ℕ → Byte) (L : LatticeBase ν α)
    (k : List Pos32) (a : ℕ) (hk : L.hams = [(k, a)]) (ha : L.heap a = none) (out : List Byte) :
    putLattice io pad out L = .ub := by
  rw [putLattice, hk]
  show (putVectorM (putPointer io pad L.heap) _ [a]).bind _ = _
  rw [putVectorM, putAllM, putPointer, ha]
  rfl

end

/-! ## Example -/

/-- Two terms which share one operator, and one with another. -/
def dumpLattice : LatticeBase ℕ (BitVec 64) where
  M := 1
  N := 2
  d := 2
  heap a := if a = 70 ∨ a = 80 then some dumpSampleN else none
  hams := [([(0, 0)], 70), ([(0, 0), (0, 1)], 80), ([(0, 1)], 70)]

/-- The order of `std::vector<std::tuple<int, int>>` -/
@[reducible] def posOrder : LinearOrder (List Pos32) :=
  LinearOrder.lift' (fun l : List Pos32 => l.map fun p => toLex (p.1.toInt, p.2.toInt)) (by
    refine List.map_injective_iff.2 ?_
    rintro ⟨a, b⟩ ⟨c, d⟩ h
    have h := toLex.injective h
    rw [Prod.mk.injEq] at h
    exact Prod.ext (BitVec.eq_of_toInt_eq h.1) (BitVec.eq_of_toInt_eq h.2))

attribute [local instance] posOrder

example : LatticeDumpable fastNameIO dumpLattice := by
  have ht : TensorDumpable fastNameIO dumpSampleN := by
    refine ⟨dumpSampleN_ok, fun n hn => readsBack_fastName ?_⟩
    simp only [dumpSampleN, List.mem_cons, List.not_mem_nil, or_false] at hn
    rcases hn with rfl | rfl <;> decide
  refine ⟨by decide, by decide +kernel, by decide, fun e he => ?_⟩
  simp only [dumpLattice, List.mem_cons, List.not_mem_nil, or_false] at he
  rcases he with rfl | rfl | rfl
  · exact ⟨by decide, dumpSampleN, rfl, ht⟩
  · exact ⟨by decide, dumpSampleN, rfl, ht⟩
  · exact ⟨by decide, dumpSampleN, rfl, ht⟩

/-- Two tensors are written, and the terms use them as before. -/
example :
    ((putLattice fastNameIO (fun _ => 0) [] dumpLattice).bind fun d =>
      (getLattice fastNameIO d : Outcome (LatticeBase ℕ (BitVec 64) × List Byte)).bind fun L =>
        .ok (L.1.hams, L.2)) =
    .ok ([([(0, 0)], 0), ([(0, 0), (0, 1)], 1), ([(0, 1)], 0)], []) := by
  decide +kernel

end TAT
