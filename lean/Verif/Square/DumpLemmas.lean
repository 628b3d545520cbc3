import Verif.Square.DumpModel
import Verif.Io.BinaryProps

/-!
# Lemmas about dumps of lattices
-/

namespace TAT

variable {ν α τ τ' : Type}

theorem parse_pos {l : List Byte} {x y : BitVec 32} (h2 : BinData.parse (l.take 4) = Outcome.ok y)
    (h1 : BinData.parse (l.drop 4) = Outcome.ok x) : (BinData.parse l : Outcome Pos32) = .ok (x, y) := by
  show (BinData.parse (l.take 4) : Outcome (BitVec 32)).bind _ = _
  rw [h2, Outcome.bind, h1, Outcome.bind]

instance : LawfulBin Pos32 where
  length_bytes pad p := by
    show (BinData.bytes pad p.2 ++ BinData.bytes pad p.1).length = 8
    rw [List.length_append, LawfulBin.length_bytes, LawfulBin.length_bytes]
    rfl
  parse_bytes pad p := by
    have h2 : (BinData.bytes pad p.2).length = 4 := LawfulBin.length_bytes pad p.2
    have e : BinData.bytes pad p = BinData.bytes pad p.2 ++ BinData.bytes pad p.1 := rfl
    rw [e]
    exact parse_pos (by rw [List.take_left' h2, LawfulBin.parse_bytes])
      (by rw [List.drop_left' h2, LawfulBin.parse_bytes])

theorem parse_env {l r : List Byte} {x y : BitVec 32} {c : Byte}
    (h3 : BinData.parse (l.take 4) = Outcome.ok y)
    (h2 : BinData.parse ((l.drop 4).take 4) = Outcome.ok x) (h1 : l.drop 8 = c :: r) :
    (BinData.parse l : Outcome EnvKey) = .ok (c, x, y) := by
  show (BinData.parse (l.take 4) : Outcome (BitVec 32)).bind _ = _
  rw [h3, Outcome.bind, h2, Outcome.bind, h1]

instance : LawfulBin EnvKey where
  length_bytes pad p := by
    show (BinData.bytes pad p.2.2 ++ BinData.bytes pad p.2.1 ++ [p.1, pad 9, pad 10, pad 11]).length = 12
    rw [List.length_append, List.length_append, LawfulBin.length_bytes, LawfulBin.length_bytes]
    rfl
  parse_bytes pad p := by
    have h2 : (BinData.bytes pad p.2.2).length = 4 := LawfulBin.length_bytes pad p.2.2
    have h1 : (BinData.bytes pad p.2.1).length = 4 := LawfulBin.length_bytes pad p.2.1
    have e : BinData.bytes pad p = BinData.bytes pad p.2.2 ++ (BinData.bytes pad p.2.1 ++
      [p.1, pad 9, pad 10, pad 11]) := List.append_assoc _ _ _
    rw [e]
    refine parse_env (r := [pad 9, pad 10, pad 11]) (by rw [List.take_left' h2, LawfulBin.parse_bytes])
      (by rw [List.drop_left' h2, List.take_left' h1, LawfulBin.parse_bytes]) ?_
    rw [← List.append_assoc, List.drop_left' (by rw [List.length_append, h1, h2])]

/-- `ReadsBack` if writing can fail. -/
def Dumps (put : List Byte → Outcome (List Byte)) (get : List Byte → Outcome (τ × List Byte)) (x : τ) :
    Prop :=
  ∀ out, ∃ d, put out = .ok (out ++ d) ∧ ∀ rest, get (d ++ rest) = .ok (x, rest)

theorem ReadsBack.dumps {put : List Byte → τ → List Byte} {get : List Byte → Outcome (τ × List Byte)}
    {x : τ} (h : ReadsBack put get x) : Dumps (fun out => .ok (put out x)) get x := by
  intro out
  obtain ⟨d, h1, h2⟩ := h out
  exact ⟨d, congrArg Outcome.ok h1, h2⟩

theorem Dumps.seq {put : List Byte → Outcome (List Byte)} {get : List Byte → Outcome (τ × List Byte)}
    {x : τ} (h : Dumps put get x) {put' : List Byte → Outcome (List Byte)}
    {get' : τ × List Byte → Outcome (τ' × List Byte)} {y : τ'}
    (h' : Dumps put' (fun inp => get' (x, inp)) y) :
    Dumps (fun out => (put out).bind put') (fun inp => (get inp).bind get') y := by
  intro out
  obtain ⟨d1, h1, h2⟩ := h out
  obtain ⟨d2, h3, h4⟩ := h' (out ++ d1)
  refine ⟨d1 ++ d2, ?_, fun rest => ?_⟩
  · show (put out).bind put' = _
    rw [h1]
    show put' (out ++ d1) = _
    rw [h3, List.append_assoc]
  · show (get (d1 ++ d2 ++ rest)).bind get' = _
    rw [List.append_assoc, h2]
    exact h4 rest

theorem Dumps.done (x : τ) : Dumps (fun out => .ok out) (fun inp => .ok (x, inp)) x :=
  fun out => ⟨[], by rw [List.append_nil], fun _ => rfl⟩

theorem dumps_all {put : List Byte → τ → Outcome (List Byte)}
    {get : List Byte → Outcome (τ' × List Byte)} (f : τ → τ') (l : List τ)
    (h : ∀ x ∈ l, Dumps (fun out => put out x) get (f x)) :
    Dumps (putAllM put l) (getAll get l.length) (l.map f) := by
  induction l with
  | nil => exact Dumps.done _
  | cons x l ih =>
    have h1 := h x List.mem_cons_self
    have h2 := ih fun y hy => h y (List.mem_cons_of_mem _ hy)
    refine h1.seq (get' := fun r => (getAll get l.length r.2).bind fun q => .ok (r.1 :: q.1, q.2)) ?_
    have h3 := h2.seq (put' := fun out => .ok out) (get' := fun q => Outcome.ok (f x :: q.1, q.2))
      (y := f x :: l.map f) (Dumps.done (f x :: l.map f))
    intro out
    obtain ⟨d, g1, g2⟩ := h3 out
    refine ⟨d, ?_, g2⟩
    rw [← g1]
    show putAllM put l out = (putAllM put l out).bind fun out => Outcome.ok out
    cases putAllM put l out <;> rfl

theorem dumps_vector {put : List Byte → τ → Outcome (List Byte)}
    {get : List Byte → Outcome (τ' × List Byte)} (f : τ → τ') (l : List τ) (hl : l.length < 2 ^ 64)
    (h : ∀ x ∈ l, Dumps (fun out => put out x) get (f x)) :
    Dumps (fun out => putVectorM put out l) (getVector get) (l.map f) := by
  have := (readsBack_size hl).dumps.seq (get' := fun r => getAll get r.1 r.2) (dumps_all f l h)
  exact this

theorem dumps_vector' {put : List Byte → τ → Outcome (List Byte)}
    {get : List Byte → Outcome (τ × List Byte)} (l : List τ) (hl : l.length < 2 ^ 64)
    (h : ∀ x ∈ l, Dumps (fun out => put out x) get x) :
    Dumps (fun out => putVectorM put out l) (getVector get) l := by
  have := dumps_vector id l hl h
  rwa [List.map_id] at this

/-! ## The pool -/

variable [LinearOrder (List Pos32)]

/-- The pool: addresses in the order of their first use. -/
theorem pool_spec (hams : List (List Pos32 × ℕ)) (hs : OMap.Sorted hams) :
    ∃ pool : List ℕ, pool.Nodup ∧ (∀ a, a ∈ pool ↔ ∃ k, (k, a) ∈ hams) ∧ pool.length ≤ hams.length ∧
      hams.foldl poolStep ([], []) = (pool, hams.map fun e => (e.1, pool.idxOf e.2)) := by
  induction hams using List.reverseRecOn with
  | nil => exact ⟨[], List.nodup_nil, by simp, le_refl _, rfl⟩
  | append_singleton hams e ih =>
    have hs' : OMap.Sorted hams := by
      rw [OMap.Sorted, List.map_append, List.pairwise_append] at hs
      exact hs.1
    have hlast : ∀ k' ∈ hams.map Prod.fst, k' < e.1 := by
      rw [OMap.Sorted, List.map_append, List.pairwise_append] at hs
      exact fun k' hk' => hs.2.2 k' hk' e.1 (by simp)
    obtain ⟨pool, h1, h2, h3, h4⟩ := ih hs'
    rw [List.foldl_append, h4]
    show ∃ pool', _ ∧ _ ∧ _ ∧ poolStep _ e = _
    have hset : ∀ i, OMap.set (hams.map fun e => (e.1, pool.idxOf e.2)) e.1 i =
        (hams.map fun e => (e.1, pool.idxOf e.2)) ++ [(e.1, i)] := by
      intro i
      refine OMap.set_append fun k' hk' => hlast k' ?_
      simpa [OMap.keys] using hk'
    by_cases hm : e.2 ∈ pool
    · refine ⟨pool, h1, fun a => ?_, by rw [List.length_append]; omega, ?_⟩
      · rw [h2]
        constructor
        · rintro ⟨k, hk⟩
          exact ⟨k, by simp [hk]⟩
        · rintro ⟨k, hk⟩
          rw [List.mem_append, List.mem_singleton] at hk
          rcases hk with hk | rfl
          · exact ⟨k, hk⟩
          · exact (h2 _).1 hm
      · have : (pool.findIdx? fun a => a == e.2) = some (pool.idxOf e.2) := by
          rw [List.findIdx?_eq_some_iff_findIdx_eq]
          exact ⟨List.idxOf_lt_length_of_mem hm, rfl⟩
        rw [poolStep, this]
        show (pool, OMap.set _ _ _) = _
        rw [hset, List.map_append]
        rfl
    · refine ⟨pool ++ [e.2], ?_, fun a => ?_, by simp; omega, ?_⟩
      · rw [List.nodup_append]
        refine ⟨h1, by simp, ?_⟩
        rintro a ha b hb rfl
        rw [List.mem_singleton] at hb
        exact hm (hb ▸ ha)
      · rw [List.mem_append, h2]
        constructor
        · rintro (⟨k, hk⟩ | hk)
          · exact ⟨k, by simp [hk]⟩
          · rw [List.mem_singleton] at hk
            exact ⟨e.1, by simp [hk]⟩
        · rintro ⟨k, hk⟩
          rw [List.mem_append, List.mem_singleton] at hk
          rcases hk with hk | rfl
          · exact Or.inl ⟨k, hk⟩
          · exact Or.inr (by simp)
      · have : (pool.findIdx? fun a => a == e.2) = none := by
          rw [List.findIdx?_eq_none_iff]
          intro x hx
          rw [beq_eq_false_iff_ne]
          rintro rfl
          exact hm hx
        rw [poolStep, this]
        show (pool ++ [e.2], OMap.set _ _ _) = _
        rw [hset, List.map_append]
        congr 1
        congr 1
        · refine List.map_congr_left fun x hx => ?_
          rw [List.idxOf_append_of_mem ((h2 _).2 ⟨x.1, hx⟩)]
        · simp only [List.map_cons, List.map_nil]
          rw [List.idxOf_append_of_notMem hm]
          simp

end TAT
