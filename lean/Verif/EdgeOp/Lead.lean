import Verif.EdgeOp.Group
import Verif.Tensor.Lemmas
import Verif.Symmetry.Spec
import Verif.Transpose.Props

/-!
# Offsets and leadings of the copy loop
-/

namespace TAT

variable {ν σ α : Type}

/-- The coarse leadings are the row-major strides. -/
theorem rowMajor_eq_dot {dims idx : List ℕ} (h : dims.length = idx.length) :
    rowMajor dims idx = dot idx (leadingsOf dims) := by
  induction dims generalizing idx with
  | nil => cases idx <;> simp_all [rowMajor, dot, leadingsOf]
  | cons d ds ih =>
    cases idx with
    | nil => simp at h
    | cons i is =>
      have h' : ds.length = is.length := by simpa using h
      have key : leadingsOf (d :: ds) = ds.prod :: leadingsOf ds := by
        clear ih h h'
        induction ds generalizing d with
        | nil => simp [leadingsOf]
        | cons d' ds ih =>
          rw [leadingsOf, ih d', List.headD_cons, List.prod_cons, Nat.mul_comm]
      rw [key, dot_cons, ← ih h', rowMajor]

theorem leadingsOf_length (dims : List ℕ) : (leadingsOf dims).length = dims.length := by
  induction dims with
  | nil => rfl
  | cons d ds ih =>
    cases ds with
    | nil => rfl
    | cons d' ds => rw [leadingsOf, List.length_cons, ih, List.length_cons (a := d)]

/-- Fine leadings of a list of groups of dimensions. -/
theorem fineLeadings_groups (C : List ℕ) (k : ℕ) (groups : List (List ℕ)) :
    fineLeadings C ((flagsFrom k groups).zip groups.flatten) =
      (groups.zipIdx k).flatMap fun g => (leadingsOf g.1).map (· * C.getD g.2 0) := by
  induction groups generalizing k with
  | nil => rfl
  | cons g gs ih =>
    rw [List.zipIdx_cons, List.flatMap_cons, ← ih (k + 1)]
    have hge : ∀ x ∈ (flagsFrom (k + 1) gs).zip gs.flatten, k < x.1 := by
      intro x hx
      have : x.1 ∈ flagsFrom (k + 1) gs := (List.of_mem_zip (a := x.1) (b := x.2) hx).1
      have aux : ∀ (j : ℕ) (l : List (List ℕ)), ∀ y ∈ flagsFrom j l, j ≤ y := by
        intro j l
        induction l generalizing j with
        | nil => simp [flagsFrom]
        | cons a l ih =>
          intro y hy
          rw [flagsFrom, List.mem_append] at hy
          rcases hy with hy | hy
          · rw [List.eq_of_mem_replicate hy]
          · have := ih (j + 1) y hy; omega
      exact aux (k + 1) gs _ this
    have hz : (flagsFrom k (g :: gs)).zip (g :: gs).flatten =
        (g.map fun d => (k, d)) ++ (flagsFrom (k + 1) gs).zip gs.flatten := by
      rw [flagsFrom, List.flatten_cons, List.zip_append (by simp)]
      congr 1
      apply List.ext_getElem <;> simp
    rw [hz]
    generalize (flagsFrom (k + 1) gs).zip gs.flatten = R at hge
    clear hz ih
    induction g with
    | nil => simp [leadingsOf]
    | cons d ds ih =>
      cases ds with
      | nil =>
        cases R with
        | nil => simp [fineLeadings, leadingsOf]
        | cons y R =>
          have : k ≠ y.1 := by have := hge y (by simp); omega
          simp [fineLeadings, leadingsOf, this]
      | cons d' ds =>
        rw [List.map_cons, List.map_cons, List.cons_append, List.cons_append, fineLeadings,
          ← List.cons_append, ← List.map_cons (f := fun d => (k, d)), ih, leadingsOf]
        have hl := leadingsOf_length (d' :: ds)
        cases h : leadingsOf (d' :: ds) with
        | nil => rw [h] at hl; simp at hl
        | cons l ls =>
          simp only [List.map_cons, List.cons_append, List.headD_cons, if_true]
          congr 1
          ring

theorem dot_map_mul (a b : List ℕ) (c : ℕ) : dot a (b.map (· * c)) = dot a b * c := by
  induction a generalizing b with
  | nil => simp [dot]
  | cons x a ih =>
    cases b with
    | nil => simp [dot]
    | cons y b => rw [List.map_cons, dot_cons, dot_cons, ih]; ring

/-- Starting offset plus fine strides give the row-major position of the coarse index. -/
theorem offset_eq (D : List ℕ) (offs : List ℕ) (dimsG idxG : List (List ℕ))
    (hD : D.length = dimsG.length) (ho : offs.length = dimsG.length)
    (hbox : List.Forall₂ (fun d i => d.length = i.length) dimsG idxG) :
    horner D offs + dot idxG.flatten
        (fineLeadings (leadingsOf D) ((flagsOf dimsG).zip dimsG.flatten)) =
      rowMajor D (List.zipWith (· + ·) offs (List.zipWith rowMajor dimsG idxG)) := by
  have hlen := hbox.length_eq
  rw [horner_eq (by omega), rowMajor_eq_dot (by omega), rowMajor_eq_dot (by simp; omega), flagsOf,
    fineLeadings_groups]
  have hC : (leadingsOf D).length = dimsG.length := by rw [leadingsOf_length, hD]
  generalize leadingsOf D = C at hC
  have : ∀ (pre C : List ℕ) (offs : List ℕ) (dimsG idxG : List (List ℕ)),
      List.Forall₂ (fun d i => d.length = i.length) dimsG idxG →
      C.length = dimsG.length → offs.length = dimsG.length →
      dot offs C + dot idxG.flatten ((dimsG.zipIdx pre.length).flatMap
        fun g => (leadingsOf g.1).map (· * (pre ++ C).getD g.2 0)) =
      dot (List.zipWith (· + ·) offs (List.zipWith rowMajor dimsG idxG)) C := by
    intro pre C offs dimsG idxG hb
    induction hb generalizing pre C offs with
    | nil =>
      intro hC ho
      cases C <;> cases offs <;> simp_all [dot]
    | @cons d i ds is h1 h2 ih =>
      intro hC ho
      cases C with
      | nil => simp at hC
      | cons c C =>
        cases offs with
        | nil => simp at ho
        | cons o offs =>
          have := ih (pre ++ [c]) C offs (by simpa using hC) (by simpa using ho)
          rw [List.zipIdx_cons, List.flatMap_cons, List.flatten_cons, List.zipWith_cons_cons,
            List.zipWith_cons_cons, dot_cons, dot_cons, dot_append, ← this]
          · simp only [List.append_assoc, List.singleton_append, List.length_append,
              List.length_singleton]
            have hg : (pre ++ c :: C).getD pre.length 0 = c := by simp
            rw [hg, dot_map_mul, ← rowMajor_eq_dot h1]
            ring
          · simp [leadingsOf_length, h1]
  have := this [] C offs dimsG idxG hbox hC ho
  simpa using this

end TAT
