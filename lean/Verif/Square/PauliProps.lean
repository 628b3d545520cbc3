import Verif.Square.StartModel
import Verif.Square.DenseNew
import Verif.Square.DenseGrad
import Verif.Square.UpdateNet
import Mathlib.LinearAlgebra.Matrix.Notation

/-!
# C69: the operators of spins
-/

namespace TAT

set_option linter.unusedSectionVars false

/-! ## Elements written one by one -/

section

variable {ν α : Type} [LinearOrder ν] [Zero α]

theorem dense_new_zero (junk : List NoSymmetry → ℕ → α) {names : List ν} {dims : List ℕ}
    (hn : names.Nodup) (hl : names.length = dims.length) (hd : ∀ d ∈ dims, 0 < d) :
    ∃ t, mkTensor junk names (dims.map plainEdge) = .ok t ∧ Dense (zero t) ∧ (zero t).names = names ∧
      (∀ i (hi : i < names.length), leg (zero t) names[i] = some (dims[i]'(hl ▸ hi))) ∧ ∀ x, val (zero t) x = 0 := by
  obtain ⟨t, h1, h2, h3, h4, h5⟩ := dense_set junk (fun _ : Unit => ((0 : α), ())) () hn hl hd
  refine ⟨t, h1, h2, h3, h4, fun x => ?_⟩
  have hout : ∀ n, ∀ y ∈ outputs (fun _ : Unit => ((0 : α), ())) () n, y = 0 := by
    intro n
    induction n with
    | zero => intro y hy; simp [outputs] at hy
    | succ n ih =>
      intro y hy
      rw [outputs, List.mem_cons] at hy
      exact hy.elim id (ih y)
  by_cases hv : ∀ n, leg (zero t) n ≠ none → x n < legDim (zero t) n
  · refine hout dims.prod _ ?_
    rw [← h5]
    exact (dense_elems h2).2 ⟨x, hv, rfl⟩
  · push Not at hv
    obtain ⟨n, hn, hx⟩ := hv
    exact val_outside h2.wf hn hx

open Classical in
/-- `at(position) = value` -/
theorem dense_write {t : Tensor ν NoSymmetry α} (h : Dense t) {position : List (ν × (NoSymmetry × ℕ))}
    (hc : Covers t position) (hv : ∀ n, leg t n ≠ none → (posOf position n).2 < legDim t n) (v : α) :
    ∃ r, atWrite t position v = .ok r ∧ Dense r ∧ (∀ n, leg r n = leg t n) ∧
      ∀ x, val r x = if ∀ n, leg t n ≠ none → x n = (posOf position n).2 then v else val t x := by
  obtain ⟨r, h1, h2, h3, h4, h5⟩ := C12_write h.wf hc
    (show ValidPos t fun n => (0, (posOf position n).2) from
      (dense_valid h.wf).2 fun n hn => hv n (leg_ne_none.2 hn)) v
  have hl : ∀ n, leg r n = leg t n := leg_eq_of h3 h4
  have hd : ∀ n, legDim r n = legDim t n := fun n => by rw [legDim, legDim, hl]
  refine ⟨r, h1, h.of_eq h2 hl, hl, fun x => ?_⟩
  by_cases hx : ∀ n, leg t n ≠ none → x n < legDim t n
  · have hfind : ∀ l : List ν, ∀ n ∈ l, OMap.find? (l.map fun n => (n, ((0 : NoSymmetry), x n))) n = some (0, x n) := by
      intro l
      induction l with
      | nil => intro n hn; simp at hn
      | cons a l ih =>
        intro n hn
        rw [List.map_cons, OMap.find?]
        by_cases ha : n = a
        · subst ha; simp
        · rw [if_neg (by simpa using fun h => ha h)]
          exact ih n ((List.mem_cons.1 hn).resolve_left ha)
    obtain ⟨q, hq⟩ : ∃ q, q = t.names.map fun n => (n, ((0 : NoSymmetry), x n)) := ⟨_, rfl⟩
    have hqx : ∀ n ∈ t.names, posOf q n = (0, x n) := fun n hn => by rw [posOf, hq, hfind _ n hn]; rfl
    have hcov : Covers t q := fun n hn => by
      rw [← OMap.find?_isSome, hq, hfind _ n hn]; rfl
    have hval : ValidPos t (posOf q) := by
      have : ValidPos t fun n => (0, (posOf q n).2) := (dense_valid h.wf).2 fun n hn => by
        rw [hqx n hn]; exact hx n (leg_ne_none.2 hn)
      exact this
    have e5 := h5 q hcov hval
    have hcov' : Covers r q := fun n hn => hcov n (by rwa [h3] at hn)
    have hval' : ValidPos r (posOf q) := by
      have : ValidPos r fun n => (0, (posOf q n).2) := (dense_valid h2).2 fun n hn => by
        rw [h3] at hn
        rw [hqx n hn, hd]; exact hx n (leg_ne_none.2 hn)
      exact this
    obtain ⟨a, a1, a2⟩ := C12_read h.wf hcov hval
    obtain ⟨b, b1, b2⟩ := C12_read h2 hcov' hval'
    rw [a2, b2] at e5
    have ea : a = val t x := by
      have : elem t (fun n => ((0 : NoSymmetry), (posOf q n).2)) = some (val t fun n => (posOf q n).2) :=
        elem_val h.wf fun n hn => by rw [hqx n (leg_ne_none.1 hn)]; exact hx n hn
      have e : elem t (posOf q) = some (val t fun n => (posOf q n).2) := this
      rw [e] at a1
      rw [← Option.some.inj a1]
      exact val_congr fun n hn => by rw [hqx n (leg_ne_none.1 hn)]
    have eb : b = val r x := by
      have : elem r (fun n => ((0 : NoSymmetry), (posOf q n).2)) = some (val r fun n => (posOf q n).2) :=
        elem_val h2 fun n hn => by
          rw [hl] at hn
          rw [hqx n (leg_ne_none.1 hn), hd]; exact hx n hn
      have e : elem r (posOf q) = some (val r fun n => (posOf q n).2) := this
      rw [e] at b1
      rw [← Option.some.inj b1]
      exact val_congr fun n hn => by rw [hl] at hn; rw [hqx n (leg_ne_none.1 hn)]
    have hiff : (∀ n ∈ t.names, posOf q n = posOf position n) ↔ ∀ n, leg t n ≠ none → x n = (posOf position n).2 := by
      constructor
      · intro h n hn
        rw [← h n (leg_ne_none.1 hn), hqx n (leg_ne_none.1 hn)]
      · intro h n hn
        rw [hqx n hn]
        exact Prod.ext rfl (h n (leg_ne_none.2 hn))
    rw [← eb]
    by_cases hc : ∀ n, leg t n ≠ none → x n = (posOf position n).2
    · rw [if_pos (hiff.2 hc)] at e5
      rw [if_pos hc]
      exact Outcome.ok.inj e5
    · rw [if_neg (fun h => hc (hiff.1 h))] at e5
      rw [if_neg hc, ← ea]
      exact Outcome.ok.inj e5
  · have hx' := hx
    push Not at hx
    obtain ⟨n, hn, hx⟩ := hx
    rw [val_outside h2 (by rw [hl]; exact hn) (by rw [hd]; exact hx), val_outside h.wf hn hx]
    rw [if_neg]
    intro hc
    exact hx' fun n hn => by rw [hc n hn]; exact hv n hn

end

/-! ## One spin -/

variable {ν α γ : Type} [LinearOrder ν] [Field α] [Field γ] {nm : String → ν}

theorem in0 : inName nm 0 = nm "I0" := rfl
theorem in1 : inName nm 1 = nm "I1" := rfl
theorem out0 : outName nm 0 = nm "O0" := rfl
theorem out1 : outName nm 1 = nm "O1" := rfl

theorem spinOperator_ok (hnm : Function.Injective nm) (junk : List NoSymmetry → ℕ → γ) {x y : ℕ × ℕ × γ}
    (hx : x.1 < 2 ∧ x.2.1 < 2) (hy : y.1 < 2 ∧ y.2.1 < 2) :
    ∃ t, spinOperator junk nm x y = .ok t ∧ OperatorOn 2 1 nm t ∧
      ∀ a b, matrixElement nm t [a] [b] =
        if a = y.1 ∧ b = y.2.1 then y.2.2 else if a = x.1 ∧ b = x.2.1 then x.2.2 else 0 := by
  have hne : nm "I0" ≠ nm "O0" := fun h => by simpa using hnm h
  obtain ⟨t, h1, h2, h3, h4, h5⟩ := dense_new_zero junk (names := [nm "I0", nm "O0"]) (dims := [2, 2])
    (by simpa using hne) rfl (by simp)
  have l1 : leg (zero t) (nm "I0") = some 2 := h4 0 (by simp)
  have l2 : leg (zero t) (nm "O0") = some 2 := h4 1 (by simp)
  have lo : ∀ n, leg (zero t) n ≠ none ↔ n = nm "I0" ∨ n = nm "O0" := fun n => by
    rw [leg_ne_none, h3]; simp
  have hpos : ∀ z : ℕ × ℕ × γ, posOf (OMap.ofList [(nm "I0", ((0 : NoSymmetry), z.1)), (nm "O0", ((0 : NoSymmetry), z.2.1))])
      (nm "I0") = (0, z.1) ∧ posOf (OMap.ofList [(nm "I0", ((0 : NoSymmetry), z.1)), (nm "O0", ((0 : NoSymmetry), z.2.1))])
      (nm "O0") = (0, z.2.1) := by
    intro z
    rw [posOf, posOf, find?_ofList (by simpa using hne)]
    rw [find?_ofList (by simpa using hne)]
    simp [OMap.find?, hne.symm]
  have key : ∀ (r : Tensor ν NoSymmetry γ) (z : ℕ × ℕ × γ), z.1 < 2 ∧ z.2.1 < 2 → Dense r →
      (∀ n, leg r n = leg (zero t) n) → ∃ r', atWrite r (OMap.ofList [(nm "I0", ((0 : NoSymmetry), z.1)),
        (nm "O0", ((0 : NoSymmetry), z.2.1))]) z.2.2 = .ok r' ∧ Dense r' ∧ (∀ n, leg r' n = leg (zero t) n) ∧
        ∀ a b, matrixElement nm r' [a] [b] = if a = z.1 ∧ b = z.2.1 then z.2.2 else matrixElement nm r [a] [b] := by
    intro r z hz hr hl
    obtain ⟨p1, p2⟩ := hpos z
    obtain ⟨r', g1, g2, g3, g4⟩ := dense_write hr (position := OMap.ofList [(nm "I0", ((0 : NoSymmetry), z.1)),
        (nm "O0", ((0 : NoSymmetry), z.2.1))]) (fun n hn => by
          rw [← leg_ne_none, hl, lo] at hn
          rw [← OMap.find?_isSome, find?_ofList (by simpa using hne)]
          rcases hn with rfl | rfl <;> simp [OMap.find?, hne.symm]) (fun n hn => by
          rw [hl] at hn
          rw [legDim, hl]
          rcases (lo n).1 hn with rfl | rfl
          · rw [p1, l1]; exact hz.1
          · rw [p2, l2]; exact hz.2) z.2.2
    refine ⟨r', g1, g2, fun n => (g3 n).trans (hl n), fun a b => ?_⟩
    rw [matrixElement, g4, matrixElement]
    have i1 : spinIndex nm [a] [b] (nm "I0") = a := spinIndex_in hnm [a] [b] (k := 0) (by simp)
    have i2 : spinIndex nm [a] [b] (nm "O0") = b := spinIndex_out hnm [a] [b] (k := 0) (by simp)
    suffices hiff : (∀ n, leg r n ≠ none → spinIndex nm [a] [b] n = (posOf (OMap.ofList [(nm "I0", ((0 : NoSymmetry), z.1)),
        (nm "O0", ((0 : NoSymmetry), z.2.1))]) n).2) ↔ a = z.1 ∧ b = z.2.1 by
      by_cases h : a = z.1 ∧ b = z.2.1
      · rw [if_pos h, if_pos (hiff.2 h)]
      · rw [if_neg h, if_neg fun h' => h (hiff.1 h')]
    constructor
    · intro h
      have e1 := h (nm "I0") (by rw [hl, l1]; simp)
      have e2 := h (nm "O0") (by rw [hl, l2]; simp)
      rw [i1, p1] at e1
      rw [i2, p2] at e2
      exact ⟨e1, e2⟩
    · rintro ⟨e1, e2⟩ n hn
      rw [hl] at hn
      rcases (lo n).1 hn with rfl | rfl
      · rw [i1, p1]; exact e1
      · rw [i2, p2]; exact e2
  obtain ⟨r, r1, r2, r3, r4⟩ := key (zero t) x hx h2 fun _ => rfl
  obtain ⟨r', s1, s2, s3, s4⟩ := key r y hy r2 r3
  refine ⟨r', ?_, ⟨s2, ?_, ?_, fun n hn => ?_⟩, fun a b => ?_⟩
  · rw [spinOperator]
    rw [show [(⟨false, [(0, 2)]⟩ : Edge NoSymmetry), ⟨false, [(0, 2)]⟩] = [2, 2].map plainEdge from rfl, h1]
    simp only [Outcome.bind]
    rw [r1]
    exact s1
  · intro i hi
    obtain rfl : i = 0 := by omega
    rw [in0, s3, l1]
  · intro i hi
    obtain rfl : i = 0 := by omega
    rw [out0, s3, l2]
  · rw [s3] at hn
    exact ⟨0, by omega, (lo n).1 hn⟩
  · rw [s4, r4, matrixElement, h5]

/-- The matrix of an operator on one site: rows are the spins after it ("O0"), columns those before ("I0"). -/
def matrixOf (nm : String → ν) (t : Tensor ν NoSymmetry γ) : Matrix (Fin 2) (Fin 2) γ :=
  fun b a => matrixElement nm t [a.val] [b.val]

/-- C69: the matrices of `Sx`, `Sy` and `Sz`. -/
theorem C69_matrices (hnm : Function.Injective nm) (junk : List NoSymmetry → ℕ → γ) (i : γ) :
    ∃ x y z, spinX junk nm = .ok x ∧ spinY junk nm i = .ok y ∧ spinZ junk nm = .ok z ∧
      OperatorOn 2 1 nm x ∧ OperatorOn 2 1 nm y ∧ OperatorOn 2 1 nm z ∧
      matrixOf nm x = !![0, 1 / 2; 1 / 2, 0] ∧ matrixOf nm y = !![0, i / 2; -(i / 2), 0] ∧
      matrixOf nm z = !![1 / 2, 0; 0, -(1 / 2)] := by
  obtain ⟨x, x1, x2, x3⟩ := spinOperator_ok hnm junk (x := (0, 1, 1 / 2)) (y := (1, 0, 1 / 2)) (by simp) (by simp)
  obtain ⟨y, y1, y2, y3⟩ := spinOperator_ok hnm junk (x := (0, 1, -(i / 2))) (y := (1, 0, i / 2)) (by simp) (by simp)
  obtain ⟨z, z1, z2, z3⟩ := spinOperator_ok hnm junk (x := (0, 0, 1 / 2)) (y := (1, 1, -(1 / 2))) (by simp) (by simp)
  refine ⟨x, y, z, x1, y1, z1, x2, y2, z2, ?_, ?_, ?_⟩
  all_goals
    ext b a
    rw [matrixOf]
    fin_cases a <;> fin_cases b <;> simp [x3, y3, z3]

/-- The tensor product of an operator with itself. -/
theorem onBoth_ok (hnm : Function.Injective nm) (ce : ContractEnv NoSymmetry γ) (hg : GemmOk ce.gemm)
    {cn : ContractNames ν} (hcn : [cn.c0, cn.c1, cn.c2].Nodup) {t : Tensor ν NoSymmetry γ} (ht : OperatorOn 2 1 nm t) :
    ∃ r, onBoth ce cn nm t = .ok r ∧ OperatorOn 2 2 nm r ∧
      ∀ a b a' b', matrixElement nm r [a, b] [a', b'] = matrixElement nm t [a] [a'] * matrixElement nm t [b] [b'] := by
  have h : ∀ a b : String, nm a = nm b ↔ a = b := fun a b => hnm.eq_iff
  have only : ∀ n, leg t n ≠ none → n = nm "I0" ∨ n = nm "O0" := fun n hn => by
    obtain ⟨i, hi, h⟩ := ht.only n hn
    obtain rfl : i = 0 := by omega
    exact h
  have i0 : leg t (nm "I0") = some 2 := ht.inp 0 (by omega)
  have o0 : leg t (nm "O0") = some 2 := ht.out 0 (by omega)
  have none1 : ∀ n, n ≠ nm "I0" → n ≠ nm "O0" → leg t n = none := fun n h1 h2 => by
    by_contra hn
    rcases only n hn with h | h
    · exact h1 h
    · exact h2 h
  obtain ⟨r1, r2, r3⟩ := dense_rename ht.dense (d := [(nm "I0", nm "I1"), (nm "O0", nm "O1")]) (by simp [h])
    (by simp [h]) (by
      intro c hc
      simp only [List.mem_cons, List.not_mem_nil, or_false] at hc
      rcases hc with rfl | rfl
      · exact none1 _ (by simp [h]) (by simp [h])
      · exact none1 _ (by simp [h]) (by simp [h]))
  generalize hu : edgeRename t (OMap.ofList [(nm "I0", nm "I1"), (nm "O0", nm "O1")]) = u at r1 r2 r3
  have ul : ∀ n, leg u n = if n = nm "I1" ∨ n = nm "O1" then some 2 else none := by
    intro n
    rw [r2]
    by_cases h1 : n = nm "I1"
    · subst h1; simp [i0]
    · by_cases h2 : n = nm "O1"
      · subst h2; simp [h, o0]
      · have h1' : ¬ nm "I1" = n := fun h => h1 h.symm
        have h2' : ¬ nm "O1" = n := fun h => h2 h.symm
        simp only [List.find?_cons, h1', h2', decide_false, List.find?_nil, h1, h2, or_self, if_false]
        split_ifs with h3
        · rfl
        · simp at h3
          exact none1 n h3.1 h3.2
  obtain ⟨r, c1, c2, c3, c4⟩ := dense_contract ce hg hcn r1 ht.dense (pairs := []) (by simp) (by simp) (by simp) (by
    intro n _ _
    by_cases hn : n = nm "I1" ∨ n = nm "O1"
    · refine Or.inr (none1 n ?_ ?_) <;> rcases hn with rfl | rfl <;> simp [h]
    · exact Or.inl (by rw [ul, if_neg hn]))
  simp only [List.map_nil, List.not_mem_nil, if_false] at c3
  refine ⟨r, ?_, ⟨c2, ?_, ?_, ?_⟩, fun a b a' b' => ?_⟩
  · rw [onBoth, hu, c1]
  · intro i hi
    rw [c3, ul]
    rcases (show i = 0 ∨ i = 1 by omega) with rfl | rfl
    · rw [in0, if_neg (by simp [h]), i0]; rfl
    · rw [in1, if_pos (by simp)]; rfl
  · intro i hi
    rw [c3, ul]
    rcases (show i = 0 ∨ i = 1 by omega) with rfl | rfl
    · rw [out0, if_neg (by simp [h]), o0]; rfl
    · rw [out1, if_pos (by simp)]; rfl
  · intro n hn
    rw [c3, ul] at hn
    by_cases h1 : n = nm "I1" ∨ n = nm "O1"
    · exact ⟨1, by omega, h1⟩
    · rw [if_neg h1, Option.none_or] at hn
      exact ⟨0, by omega, only n hn⟩
  · rw [matrixElement, c4, sumLegs, r3, mul_comm, matrixElement, matrixElement]
    have g1 : spinIndex nm [a, b] [a', b'] (nm "I0") = a := spinIndex_in hnm [a, b] [a', b'] (k := 0) (by simp)
    have g2 : spinIndex nm [a, b] [a', b'] (nm "I1") = b := spinIndex_in hnm [a, b] [a', b'] (k := 1) (by simp)
    have g3 : spinIndex nm [a, b] [a', b'] (nm "O0") = a' := spinIndex_out hnm [a, b] [a', b'] (k := 0) (by simp)
    have g4 : spinIndex nm [a, b] [a', b'] (nm "O1") = b' := spinIndex_out hnm [a, b] [a', b'] (k := 1) (by simp)
    have s1 : ∀ a b, spinIndex nm [a] [b] (nm "I0") = a := fun a b => spinIndex_in hnm [a] [b] (k := 0) (by simp)
    have s2 : ∀ a b, spinIndex nm [a] [b] (nm "O0") = b := fun a b => spinIndex_out hnm [a] [b] (k := 0) (by simp)
    congr 1
    · refine val_congr fun n hn => ?_
      rcases only n hn with rfl | rfl
      · rw [g1, s1]
      · rw [g3, s2]
    · refine val_congr fun n hn => ?_
      rcases only n hn with rfl | rfl
      · simp [OMap.find?, g2, s1]
      · simp [OMap.find?, h, g4, s2]

theorem operator_convert {β : Type} [Zero β] {f : γ → β} (hf : f 0 = 0) {d k : ℕ} {t : Tensor ν NoSymmetry γ}
    (ht : OperatorOn d k nm t) : OperatorOn d k nm (convertTo f t) ∧
      ∀ a b, matrixElement nm (convertTo f t) a b = f (matrixElement nm t a b) := by
  obtain ⟨e1, e2, -, e4⟩ := C50_to f ht.dense.wf
  have hl : ∀ n, leg (convertTo f t) n = leg t n := leg_eq_of (by rw [e1]; rfl) (by rw [e1]; rfl)
  exact ⟨⟨ht.dense.of_eq e2 hl, fun i hi => (hl _).trans (ht.inp i hi), fun i hi => (hl _).trans (ht.out i hi),
    fun n hn => ht.only n (by rwa [hl] at hn)⟩, fun a b => val_map ht.dense.wf e2 hl hf e4 _⟩

theorem OperatorOn.leg_eq {d k : ℕ} {t u : Tensor ν NoSymmetry α} (ht : OperatorOn d k nm t) (hu : OperatorOn d k nm u)
    (n : ν) : leg t n = leg u n := by
  by_cases h : ∃ i < k, n = inName nm i ∨ n = outName nm i
  · obtain ⟨i, hi, rfl | rfl⟩ := h
    · rw [ht.inp i hi, hu.inp i hi]
    · rw [ht.out i hi, hu.out i hi]
  · have h1 : leg t n = none := by_contra fun hn => h (ht.only n hn)
    have h2 : leg u n = none := by_contra fun hn => h (hu.only n hn)
    rw [h1, h2]

theorem operator_add (env : Env NoSymmetry α) (junk : List NoSymmetry → ℕ → α) {d k : ℕ} {t u : Tensor ν NoSymmetry α}
    (ht : OperatorOn d k nm t) (hu : OperatorOn d k nm u) :
    ∃ r, scalarOp env junk id id (· + ·) t u = .ok r ∧ OperatorOn d k nm r ∧
      ∀ a b, matrixElement nm r a b = matrixElement nm t a b + matrixElement nm u a b := by
  obtain ⟨r, r1, r2, r3, r4⟩ := dense_binary env junk (op := (· + ·)) (add_zero 0) ht.dense hu.dense
    fun n => hu.leg_eq ht n
  exact ⟨r, r1, ⟨r2, fun i hi => (r3 _).trans (ht.inp i hi), fun i hi => (r3 _).trans (ht.out i hi),
    fun n hn => ht.only n (by rwa [r3] at hn)⟩, fun a b => r4 _⟩

/-- What is assumed of the external functions and of the complex numbers. -/
structure SpinEnvOk (e : SpinEnv ν α γ) : Prop where
  gemm : GemmOk e.ce.gemm
  gemmC : GemmOk e.ceC.gemm
  names : [e.cn.c0, e.cn.c1, e.cn.c2].Nodup
  inj : Function.Injective e.nm
  i_mul : e.i * e.i = -1
  zero : e.toT 0 = 0
  quarter : e.toT (1 / 4) = 1 / 4
  minus : e.toT (-(1 / 4)) = -(1 / 4)

/-- C69: `SS` is an operator on two spins whose elements are a half of those of the exchange of the two spins minus
a quarter of those of the identity. -/
theorem C69_exchange {e : SpinEnv ν α γ} (he : SpinEnvOk e) (h2 : (2 : α) ≠ 0) :
    ∃ t, spinSS e = .ok t ∧ OperatorOn 2 2 e.nm t ∧ ∀ a b a' b' : Fin 2,
      matrixElement e.nm t [a.val, b.val] [a'.val, b'.val] =
        (if a' = b ∧ b' = a then 1 / 2 else 0) - if a' = a ∧ b' = b then 1 / 4 else 0 := by
  obtain ⟨x, x1, x2, x3⟩ := spinOperator_ok he.inj e.junk (x := (0, 1, 1 / 2)) (y := (1, 0, 1 / 2)) (by simp) (by simp)
  obtain ⟨y, y1, y2, y3⟩ := spinOperator_ok he.inj e.junkC (x := (0, 1, -(e.i / 2))) (y := (1, 0, e.i / 2)) (by simp)
    (by simp)
  obtain ⟨z, z1, z2, z3⟩ := spinOperator_ok he.inj e.junk (x := (0, 0, 1 / 2)) (y := (1, 1, -(1 / 2))) (by simp)
    (by simp)
  obtain ⟨xx, a1, a2, a3⟩ := onBoth_ok he.inj e.ce he.gemm he.names x2
  obtain ⟨yy, b1, b2, b3⟩ := onBoth_ok he.inj e.ceC he.gemmC he.names y2
  obtain ⟨zz, c1, c2, c3⟩ := onBoth_ok he.inj e.ce he.gemm he.names z2
  obtain ⟨d2, d3⟩ := operator_convert he.zero b2
  obtain ⟨r, r1, r2, r3⟩ := operator_add e.env e.junk a2 d2
  obtain ⟨s, s1, s2, s3⟩ := operator_add e.env e.junk r2 c2
  have hx : spinX e.junk e.nm = .ok x := x1
  have hy : spinY e.junkC e.nm e.i = .ok y := y1
  have hz : spinZ e.junk e.nm = .ok z := z1
  refine ⟨s, ?_, s2, fun a b a' b' => ?_⟩
  · rw [spinSS, spinXX, spinYY, spinZZ, hx, hy, hz]
    simp only [Outcome.bind]
    rw [a1, b1, c1]
    simp only
    rw [r1]
    exact s1
  · rw [s3, r3, a3, d3, b3, c3]
    have q1 : e.i / 2 * (e.i / 2) = -4⁻¹ := by
      rw [div_mul_div_comm, he.i_mul, neg_div]; norm_num
    have k1 : (2 : α)⁻¹ * 2⁻¹ = 4⁻¹ := by rw [← mul_inv]; norm_num
    have k2 : (4 : α)⁻¹ + 4⁻¹ = 2⁻¹ := by
      have : (4 : α) ≠ 0 := by rw [show (4 : α) = 2 * 2 by norm_num]; exact mul_ne_zero h2 h2
      field_simp
      norm_num
    have k3 : (2 : α)⁻¹ - 4⁻¹ = 4⁻¹ := by rw [← k2]; ring
    have t1 := he.quarter
    have t2 := he.minus
    rw [one_div, one_div] at t1 t2
    fin_cases a <;> fin_cases b <;> fin_cases a' <;> fin_cases b' <;>
      simp [x3, y3, z3, he.zero, q1, k1, k2, k3, t1, t2]

/-- C69: the term `SS` on two sites exchanges their spins, with a half, and takes off a quarter of the state. -/
theorem C69_heisenberg {e : SpinEnv ν α γ} (he : SpinEnvOk e) (h2 : (2 : α) ≠ 0) :
    ∃ t, spinSS e = .ok t ∧ OperatorOn 2 2 e.nm t ∧
      ∀ {M N : ℕ} {x y : LatticeSite M N}, x ≠ y → ∀ (ψ : SpinConfig M N 2 → α) (s : SpinConfig M N 2),
        actOn [x, y] (matrixElement e.nm t) ψ s = ψ (s ∘ Equiv.swap x y) / 2 - ψ s / 4 := by
  obtain ⟨t, t1, t2, t3⟩ := C69_exchange he h2
  refine ⟨t, t1, t2, fun {M N x y} hxy ψ s => ?_⟩
  rw [actOn_two hxy]
  have h1 : s ∘ Equiv.swap x y = Function.update (Function.update s x (s y)) y (s x) := by
    funext z
    by_cases hz : z = y
    · subst hz; simp
    · by_cases hz' : z = x
      · subst hz'; simp [hz]
      · simp [hz, hz', Equiv.swap_apply_of_ne_of_ne hz' hz]
  have h3 : s = Function.update (Function.update s x (s x)) y (s y) := by simp
  simp only [t3, mul_sub, Finset.sum_sub_distrib]
  congr 1
  · rw [Finset.sum_eq_single (s y), Finset.sum_eq_single (s x), if_pos ⟨rfl, rfl⟩, ← h1]
    · ring
    · intro b _ hb
      rw [if_neg fun h => hb h.1.symm, mul_zero]
    · simp
    · intro a _ ha
      refine Finset.sum_eq_zero fun b _ => ?_
      rw [if_neg fun h => ha h.2.symm, mul_zero]
    · simp
  · rw [Finset.sum_eq_single (s x), Finset.sum_eq_single (s y), if_pos ⟨rfl, rfl⟩, ← h3]
    · ring
    · intro b _ hb
      rw [if_neg fun h => hb h.2.symm, mul_zero]
    · simp
    · intro a _ ha
      refine Finset.sum_eq_zero fun b _ => ?_
      rw [if_neg fun h => ha h.1.symm, mul_zero]
    · simp

/-- C69: the products of `Sx`, `Sy` and `Sz`.  From the edges "I" to the edges "O" the commutators have the sign
which is opposite to that of spins, because `Sy` is the transpose of the usual matrix.  In `SS` the sign cancels. -/
theorem C69_commutators (hnm : Function.Injective nm) (junk : List NoSymmetry → ℕ → γ) {i : γ} (hi : i * i = -1)
    (h2 : (2 : γ) ≠ 0) {x y z : Tensor ν NoSymmetry γ} (hx : spinX junk nm = .ok x) (hy : spinY junk nm i = .ok y)
    (hz : spinZ junk nm = .ok z) :
    let X := matrixOf nm x
    let Y := matrixOf nm y
    let Z := matrixOf nm z
    X * X = (1 / 4 : γ) • 1 ∧ Y * Y = (1 / 4 : γ) • 1 ∧ Z * Z = (1 / 4 : γ) • 1 ∧
      X * Y - Y * X = -(i • Z) ∧ Y * Z - Z * Y = -(i • X) ∧ Z * X - X * Z = -(i • Y) ∧
      X * Y - Y * X ≠ i • Z := by
  obtain ⟨x', y', z', e1, e2, e3, -, -, -, m1, m2, m3⟩ := C69_matrices hnm junk i
  obtain rfl : x' = x := by rw [hx] at e1; exact (Outcome.ok.inj e1).symm
  obtain rfl : y' = y := by rw [hy] at e2; exact (Outcome.ok.inj e2).symm
  obtain rfl : z' = z := by rw [hz] at e3; exact (Outcome.ok.inj e3).symm
  simp only [m1, m2, m3]
  have h4 : (4 : γ) ≠ 0 := by rw [show (4 : γ) = 2 * 2 by norm_num]; exact mul_ne_zero h2 h2
  have hi0 : i ≠ 0 := by
    rintro rfl
    simp at hi
  have hi2 : i ^ 2 = -1 := by rw [pow_two, hi]
  have hcom : !![0, 1 / 2; 1 / 2, 0] * !![0, i / 2; -(i / 2), 0] - !![0, i / 2; -(i / 2), 0] * !![0, 1 / 2; 1 / 2, 0] =
      -(i • !![1 / 2, 0; 0, -(1 / 2)] : Matrix (Fin 2) (Fin 2) γ) := by
    ext a b
    fin_cases a <;> fin_cases b <;> simp
    all_goals (field_simp; ring)
  refine ⟨?_, ?_, ?_, hcom, ?_, ?_, ?_⟩
  · ext a b
    fin_cases a <;> fin_cases b <;> simp
    all_goals (field_simp; norm_num [hi2])
  · ext a b
    fin_cases a <;> fin_cases b <;> simp
    all_goals (field_simp; norm_num [hi2])
  · ext a b
    fin_cases a <;> fin_cases b <;> simp
    all_goals (field_simp; norm_num [hi2])
  · ext a b
    fin_cases a <;> fin_cases b <;> simp
    all_goals (field_simp; norm_num [hi2])
  · ext a b
    fin_cases a <;> fin_cases b <;> simp
    all_goals (field_simp; norm_num [hi2])
  · rw [hcom]
    intro h
    have h' := congrFun (congrFun h 0) 0
    simp only [Matrix.neg_apply, Matrix.smul_apply, Matrix.of_apply, Matrix.cons_val_zero, smul_eq_mul] at h'
    have h5 : i * (1 / 2) = 0 := by
      have h6 : 2 * (i * (1 / 2)) = 0 := by linear_combination -h'
      exact (mul_eq_zero.1 h6).resolve_left h2
    rcases mul_eq_zero.1 h5 with h | h
    · exact hi0 h
    · exact one_div_ne_zero h2 h

end TAT
