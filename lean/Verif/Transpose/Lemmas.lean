import Verif.Transpose.Spec
import Verif.Core.Lemmas

/-!
# Lemmas about the data transpose
-/

namespace TAT

variable {α : Type}

/-! ## addresses -/

theorem dot_nil (l : List ℕ) : dot [] l = 0 := by simp [dot]

theorem dot_cons (i : ℕ) (is : List ℕ) (s : ℕ) (ss : List ℕ) :
    dot (i :: is) (s :: ss) = i * s + dot is ss := by simp [dot]

theorem dot_append {a b c d : List ℕ} (h : a.length = c.length) :
    dot (a ++ b) (c ++ d) = dot a c + dot b d := by
  unfold dot
  rw [List.zipWith_append h, List.sum_append]

theorem dot_zeros (n : ℕ) (l : List ℕ) : dot (List.replicate n 0) l = 0 := by
  induction n generalizing l with
  | zero => exact dot_nil l
  | succ n ih =>
    cases l with
    | nil => simp [dot]
    | cons s ss => rw [List.replicate_succ, dot_cons, ih]; simp

theorem dot_set {idx strides : List ℕ} (hl : idx.length = strides.length) {e : ℕ}
    (he : e < idx.length) (x : ℕ) :
    dot (idx.set e x) strides + idx.getD e 0 * strides.getD e 0 =
      dot idx strides + x * strides.getD e 0 := by
  induction idx generalizing strides e with
  | nil => simp at he
  | cons i is ih =>
    cases strides with
    | nil => simp at hl
    | cons s ss =>
      cases e with
      | zero =>
        simp only [List.set_cons_zero, List.getD_cons_zero, dot_cons]
        ring
      | succ e =>
        simp only [List.set_cons_succ, List.getD_cons_succ, dot_cons]
        have := ih (strides := ss) (by simpa using hl) (e := e) (by simpa using he)
        omega

/-! ## the odometer -/

/-- The cursor standing at index tuple `idx`. -/
def cursorAt (ls ld : List ℕ) (s0 d0 : ℕ) (idx : List ℕ) : Cursor :=
  ⟨idx, s0 + dot idx ls, d0 + dot idx ld⟩

theorem bump_cursorAt {dims ls ld : List ℕ} (hs : ls.length = dims.length)
    (hd : ld.length = dims.length) {s0 d0 : ℕ} {idx : List ℕ} (hl : idx.length = dims.length)
    {e : ℕ} (he : e < dims.length) :
    (cursorAt ls ld s0 d0 idx).bump ls ld e =
      cursorAt ls ld s0 d0 (idx.set e (idx.getD e 0 + 1)) := by
  have h1 := dot_set (idx := idx) (strides := ls) (by omega) (e := e) (by omega)
    (idx.getD e 0 + 1)
  have h2 := dot_set (idx := idx) (strides := ld) (by omega) (e := e) (by omega)
    (idx.getD e 0 + 1)
  rw [Nat.add_mul] at h1 h2
  simp only [cursorAt, Cursor.bump, Cursor.mk.injEq, true_and]
  omega

theorem rewind_cursorAt {dims ls ld : List ℕ} (hs : ls.length = dims.length)
    (hd : ld.length = dims.length) {s0 d0 : ℕ} {idx : List ℕ} (hl : idx.length = dims.length)
    {e : ℕ} (he : e < dims.length) (hfull : idx.getD e 0 = dims.getD e 0) :
    (cursorAt ls ld s0 d0 idx).rewind dims ls ld e = cursorAt ls ld s0 d0 (idx.set e 0) := by
  have h1 := dot_set (idx := idx) (strides := ls) (by omega) (e := e) (by omega) 0
  have h2 := dot_set (idx := idx) (strides := ld) (by omega) (e := e) (by omega) 0
  rw [hfull] at h1 h2
  simp only [cursorAt, Cursor.rewind, Cursor.mk.injEq, true_and]
  omega

/-- The pointer arithmetic of the carry loop follows the plain odometer. -/
theorem kernelCarry_eq {dims ls ld : List ℕ} (hs : ls.length = dims.length)
    (hd : ld.length = dims.length) (s0 d0 : ℕ) (e : ℕ) (he : e < dims.length) :
    ∀ idx : List ℕ, idx.length = dims.length →
    kernelCarry dims ls ld e ((cursorAt ls ld s0 d0 idx).bump ls ld e) =
      (carry dims e idx).map fun x => cursorAt ls ld s0 d0 x.1 := by
  induction e with
  | zero =>
    intro idx hl
    rw [bump_cursorAt hs hd hl he, carry_eq]
    unfold kernelCarry
    by_cases hc : (idx.set 0 (idx.getD 0 0 + 1)).getD 0 0 = dims.getD 0 0
    · rw [if_pos hc, if_pos (by simpa [cursorAt] using hc)]
      rfl
    · rw [if_neg hc, if_neg (by simpa [cursorAt] using hc)]
      rfl
  | succ e ih =>
    intro idx hl
    rw [bump_cursorAt hs hd hl he, carry_eq]
    have hl' : (idx.set (e + 1) (idx.getD (e + 1) 0 + 1)).length = dims.length := by simpa using hl
    unfold kernelCarry
    by_cases hc : (idx.set (e + 1) (idx.getD (e + 1) 0 + 1)).getD (e + 1) 0 = dims.getD (e + 1) 0
    · rw [if_pos hc, if_pos (by simpa [cursorAt] using hc),
        rewind_cursorAt hs hd hl' he hc]
      exact ih (by omega) _ (by simpa using hl)
    · rw [if_neg hc, if_neg (by simpa [cursorAt] using hc)]
      rfl

/-- Stepping the odometer from the front part only. -/
theorem carry_append {d1 d2 : List ℕ} (i2 : List ℕ) {e : ℕ} (he : e < d1.length) :
    ∀ i1 : List ℕ, i1.length = d1.length →
    carry (d1 ++ d2) e (i1 ++ i2) = (carry d1 e i1).map fun x => (x.1 ++ i2, x.2) := by
  induction e with
  | zero =>
    intro i1 hl
    rw [carry_eq, carry_eq, List.getD_append _ _ _ _ (by omega : 0 < i1.length),
      List.set_append_left _ _ (by omega), List.getD_append _ _ _ _ (by simp; omega),
      List.getD_append _ _ _ _ he]
    split <;> simp
  | succ e ih =>
    intro i1 hl
    rw [carry_eq, carry_eq, List.getD_append _ _ _ _ (by omega : e + 1 < i1.length),
      List.set_append_left _ _ (by omega), List.getD_append _ _ _ _ (by simp; omega),
      List.getD_append _ _ _ _ he]
    split
    · simp only
      rw [List.getD_append _ _ _ _ (by omega : e + 1 < i1.length),
        List.set_append_left _ _ (by omega), List.set_append_left _ _ (by simp; omega)]
      exact ih (by omega) _ (by simpa using hl)
    · simp

/-- A loop driven by the odometer visits all index tuples in order. -/
theorem kernelLoop_eq {dims : List ℕ} (hr : 0 < dims.length)
    (body : ℕ → ℕ → List α → Outcome (List α)) (advance : Cursor → Option Cursor)
    (cur : List ℕ → Cursor)
    (hadv : ∀ idx, InBox dims idx →
      advance (cur idx) = (carry dims (dims.length - 1) idx).map fun x => cur x.1)
    (fuel : ℕ) {idx : List ℕ} (hb : InBox dims idx)
    (hf : dims.prod - rowMajor dims idx ≤ fuel) (dst : List α) :
    kernelLoop body advance fuel (cur idx) dst =
      ((List.range' (rowMajor dims idx) (dims.prod - rowMajor dims idx)).map
        (unravel dims)).foldlM (fun dst idx => body (cur idx).cs (cur idx).cd dst) dst := by
  induction fuel generalizing idx dst with
  | zero => have := rowMajor_lt hb; omega
  | succ fuel ih =>
    have hw : weight dims (dims.length - 1) = 1 := by
      unfold weight
      rw [List.drop_eq_nil_of_le (by omega)]; rfl
    have hlt := rowMajor_lt hb
    obtain ⟨m, hm⟩ : ∃ m, dims.prod - rowMajor dims idx = m + 1 :=
      ⟨dims.prod - rowMajor dims idx - 1, by omega⟩
    have hm' : dims.prod - (rowMajor dims idx + 1) = m := by omega
    have hf' : dims.prod - (rowMajor dims idx + 1) ≤ fuel := by omega
    have hm0 : ¬ rowMajor dims idx + 1 < dims.prod → m = 0 := by omega
    have hge : ¬ rowMajor dims idx + 1 < dims.prod → dims.prod ≤ rowMajor dims idx + 1 := by omega
    have hc := carry_spec hb (e := dims.length - 1) (by omega)
    rw [hw] at hc
    rw [hm, List.range'_succ, List.map_cons, List.foldlM_cons, unravel_rowMajor hb]
    simp only [kernelLoop, hadv idx hb]
    change Outcome.bind _ _ = Outcome.bind _ _
    congr 1
    funext dst'
    by_cases hN : rowMajor dims idx + 1 < dims.prod
    · obtain ⟨e', h1, h2, h3, h4⟩ := hc.2 hN
      rw [h2]
      have hb' := inBox_unravel hN
      have hrm := rowMajor_unravel hN
      simp only [Option.map_some]
      rw [ih hb' (by rw [hrm]; exact hf'), hrm, hm']
    · rw [hc.1 (hge hN)]
      have := hm0 hN
      subst this
      rfl

theorem kernelLoop_tuples {dims : List ℕ} (hr : 0 < dims.length) (hp : 0 < dims.prod)
    (body : ℕ → ℕ → List α → Outcome (List α)) (advance : Cursor → Option Cursor)
    (cur : List ℕ → Cursor)
    (hadv : ∀ idx, InBox dims idx →
      advance (cur idx) = (carry dims (dims.length - 1) idx).map fun x => cur x.1)
    (fuel : ℕ) (hf : dims.prod ≤ fuel) (dst : List α) :
    kernelLoop body advance fuel (cur (List.replicate dims.length 0)) dst =
      (tuples dims).foldlM (fun dst idx => body (cur idx).cs (cur idx).cd dst) dst := by
  have hz : unravel dims 0 = List.replicate dims.length 0 := by
    clear hr hp hf hadv
    induction dims with
    | nil => rfl
    | cons d ds ih => simp [unravel, ih, List.replicate_succ]
  have hb : InBox dims (List.replicate dims.length 0) := by rw [← hz]; exact inBox_unravel hp
  rw [kernelLoop_eq hr body advance cur hadv fuel hb (by rw [rowMajor_zeros]; omega),
    rowMajor_zeros, tuples_eq, List.range_eq_range']
  rfl

theorem kernelPoint_eq [Neg α] (parity : Bool) (src : List α) (sOff : ℕ) (dst : List α) (dOff : ℕ)
    {dims ls ld : List ℕ} (hs : ls.length = dims.length) (hd : ld.length = dims.length)
    (hr : 0 < dims.length) (hp : 0 < dims.prod) :
    kernelPoint parity src sOff dst dOff dims ls ld dims.length =
      (tuples dims).foldlM (fun dst idx =>
        copyOne parity src (sOff + dot idx ls) (dOff + dot idx ld) dst) dst := by
  unfold kernelPoint
  have h0 : (⟨List.replicate dims.length 0, sOff, dOff⟩ : Cursor) =
      cursorAt ls ld sOff dOff (List.replicate dims.length 0) := by
    simp [cursorAt, dot_zeros]
  rw [h0, kernelLoop_tuples hr hp _ _ (cursorAt ls ld sOff dOff) _ _ le_rfl]
  · rfl
  · intro idx hb
    exact kernelCarry_eq hs hd sOff dOff _ (by omega) idx hb.length.symm

theorem kernelLine_eq [Neg α] (parity : Bool) (src : List α) (sOff : ℕ) (dst : List α) (dOff : ℕ)
    {d1 d2 ls1 ls2 ld1 ld2 : List ℕ} (hs : ls1.length = d1.length) (hd : ld1.length = d1.length)
    (h2 : 0 < d2.length) (hs2 : ls2.length = d2.length) (hd2 : ld2.length = d2.length)
    (hp : 0 < (d1 ++ d2).prod) {n : ℕ}
    (hns : d2.getD 0 0 * ls2.getD 0 0 = n) (hnd : d2.getD 0 0 * ld2.getD 0 0 = n) :
    kernelLine parity src sOff dst dOff (d1 ++ d2) (ls1 ++ ls2) (ld1 ++ ld2)
        (d1 ++ d2).length d1.length n =
      (tuples d1).foldlM (fun dst idx =>
        copyLine parity src n (sOff + dot idx ls1) (dOff + dot idx ld1) dst) dst := by
  unfold kernelLine
  have hp12 : 0 < d1.prod ∧ 0 < d2.prod := by
    rw [List.prod_append] at hp
    exact ⟨Nat.pos_of_mul_pos_right hp, Nat.pos_of_mul_pos_left hp⟩
  set z2 := List.replicate d2.length 0 with hz2
  have hz2l : z2.length = d2.length := by simp [hz2]
  have g1 : ∀ (a b : List ℕ), (a ++ b).getD a.length 0 = b.getD 0 0 := by
    intro a b
    rw [List.getD_append_right _ _ _ _ le_rfl, Nat.sub_self]
  -- what happens after a line
  have hend : ∀ idx : List ℕ, idx.length = d1.length →
      kernelCarry (d1 ++ d2) (ls1 ++ ls2) (ld1 ++ ld2) d1.length
        ((⟨idx ++ z2, sOff + dot idx ls1, dOff + dot idx ld1⟩ : Cursor).endLine (d1 ++ d2)
          d1.length n) =
      if d1.length = 0 then none
      else kernelCarry (d1 ++ d2) (ls1 ++ ls2) (ld1 ++ ld2) (d1.length - 1)
        ((⟨idx ++ z2, sOff + dot idx ls1, dOff + dot idx ld1⟩ : Cursor).bump (ls1 ++ ls2)
          (ld1 ++ ld2) (d1.length - 1)) := by
    intro idx hl
    have hfull : ((idx ++ z2).set d1.length ((d1 ++ d2).getD d1.length 0)).getD d1.length 0 =
        (d1 ++ d2).getD d1.length 0 := by
      rw [getD_set_self]
      simp [hl, hz2l]; omega
    have hback : ((idx ++ z2).set d1.length ((d1 ++ d2).getD d1.length 0)).set d1.length 0 =
        idx ++ z2 := by
      rw [List.set_set]
      obtain ⟨k, hk⟩ : ∃ k, d2.length = k + 1 := ⟨d2.length - 1, by omega⟩
      have : z2 = 0 :: List.replicate k 0 := by rw [hz2, hk, List.replicate_succ]
      rw [this, ← hl]
      simp
    cases hd1 : d1.length with
    | zero =>
      rw [if_pos rfl]
      rw [hd1] at hfull
      unfold kernelCarry
      rw [if_pos (by simpa only [Cursor.endLine] using hfull)]
    | succ k =>
      rw [if_neg (by omega)]
      rw [hd1] at hfull hback
      rw [kernelCarry, if_pos (by simpa only [Cursor.endLine] using hfull)]
      simp only [Nat.add_sub_cancel]
      congr 2
      simp only [Cursor.endLine, Cursor.rewind, hback]
      have e0 : (d1 ++ d2).getD (k + 1) 0 = d2.getD 0 0 := by rw [← hd1]; exact g1 _ _
      have e1 : (ls1 ++ ls2).getD (k + 1) 0 = ls2.getD 0 0 := by rw [← hd1, ← hs]; exact g1 _ _
      have e2 : (ld1 ++ ld2).getD (k + 1) 0 = ld2.getD 0 0 := by rw [← hd1, ← hd]; exact g1 _ _
      rw [e0, e1, e2, hns, hnd]
      simp
  have hc0 : (⟨List.replicate (d1 ++ d2).length 0, sOff, dOff⟩ : Cursor) =
      ⟨List.replicate d1.length 0 ++ z2, sOff + dot (List.replicate d1.length 0) ls1,
        dOff + dot (List.replicate d1.length 0) ld1⟩ := by
    rw [dot_zeros, dot_zeros, hz2, List.length_append, List.replicate_add]
    rfl
  rw [hc0]
  rcases Nat.eq_zero_or_pos d1.length with h0 | hpos
  · have hd1 : d1 = [] := List.length_eq_zero_iff.1 h0
    subst hd1
    obtain ⟨k, hk⟩ : ∃ k, ([] ++ d2).prod = k + 1 := ⟨([] ++ d2).prod - 1, by omega⟩
    rw [hk]
    simp only [kernelLoop]
    have := hend [] rfl
    simp only [List.length_nil, if_true] at this
    simp only [List.length_nil, List.replicate_zero, tuples, List.foldlM_cons,
      List.foldlM_nil]
    change Outcome.bind _ _ = Outcome.bind _ _
    congr 1
    funext dst'
    rw [this]
    rfl
  · have key := kernelLoop_tuples (dims := d1) hpos hp12.1 (copyLine parity src n)
      (fun c => kernelCarry (d1 ++ d2) (ls1 ++ ls2) (ld1 ++ ld2) d1.length
        (c.endLine (d1 ++ d2) d1.length n))
      (fun idx => ⟨idx ++ z2, sOff + dot idx ls1, dOff + dot idx ld1⟩) ?_ (d1 ++ d2).prod ?_ dst
    · exact key
    · intro idx hb
      have hl : idx.length = d1.length := hb.length.symm
      have dz : ∀ (x l1 l2 : List ℕ), x.length = l1.length →
          dot (x ++ z2) (l1 ++ l2) = dot x l1 := by
        intro x l1 l2 h
        rw [dot_append h, hz2, dot_zeros, Nat.add_zero]
      rw [hend idx hl, if_neg (by omega)]
      have hcur : (⟨idx ++ z2, sOff + dot idx ls1, dOff + dot idx ld1⟩ : Cursor) =
          cursorAt (ls1 ++ ls2) (ld1 ++ ld2) sOff dOff (idx ++ z2) := by
        simp only [cursorAt]
        rw [dz _ _ _ (by omega), dz _ _ _ (by omega)]
      rw [hcur, kernelCarry_eq (by simp [hs, hs2]) (by simp [hd, hd2]) sOff dOff _
        (by simp; omega) _ (by simp [hl, hz2l]), carry_append z2 (by omega) idx hl]
      rw [Option.map_map]
      have hcl : ∀ x, carry d1 (d1.length - 1) idx = some x → x.1.length = d1.length := by
        intro x hx
        have hcs := carry_spec hb (e := d1.length - 1) (by omega)
        by_cases hN : rowMajor d1 idx + weight d1 (d1.length - 1) < d1.prod
        · obtain ⟨e', _, h3, _⟩ := hcs.2 hN
          rw [hx] at h3
          cases h3
          exact unravel_length _ _
        · have := hcs.1 (by clear hcs; omega)
          rw [hx] at this; cases this
      cases hcc : carry d1 (d1.length - 1) idx with
      | none => rfl
      | some x =>
        have := hcl x hcc
        simp only [Option.map_some, Function.comp_apply, cursorAt]
        rw [dz _ _ _ (by omega), dz _ _ _ (by omega)]
    · rw [List.prod_append]
      exact Nat.le_mul_of_pos_right _ hp12.2

/-! ## the writes -/

/-- The address pairs of a box, in order. -/
def pairsOf (dims ls ld : List ℕ) (sOff dOff : ℕ) : List (ℕ × ℕ) :=
  (tuples dims).map fun idx => (sOff + dot idx ls, dOff + dot idx ld)

/-- Copy along a list of address pairs. -/
def copyPairs [Neg α] (parity : Bool) (src : List α) (pairs : List (ℕ × ℕ)) (dst : List α) :
    Outcome (List α) :=
  pairs.foldlM (fun dst p => copyOne parity src p.1 p.2 dst) dst

theorem copyPairs_spec [Neg α] (parity : Bool) (src : List α) (pairs : List (ℕ × ℕ))
    (dst : List α) (hs : ∀ p ∈ pairs, p.1 < src.length) (hd : ∀ p ∈ pairs, p.2 < dst.length)
    (hinj : ∀ p ∈ pairs, ∀ q ∈ pairs, p.2 = q.2 → p.1 = q.1) :
    ∃ dst', copyPairs parity src pairs dst = .ok dst' ∧ dst'.length = dst.length ∧
      (∀ p ∈ pairs, dst'[p.2]? = (src[p.1]?).map (signed parity)) ∧
      (∀ o, (∀ p ∈ pairs, o ≠ p.2) → dst'[o]? = dst[o]?) := by
  induction pairs generalizing dst with
  | nil => exact ⟨dst, rfl, rfl, by simp, by simp⟩
  | cons p ps ih =>
    have hp1 := hs p (by simp)
    have hp2 := hd p (by simp)
    obtain ⟨dst', h1, h2, h3, h4⟩ := ih (dst.set p.2 (signed parity src[p.1]))
      (fun q hq => hs q (by simp [hq]))
      (fun q hq => by rw [List.length_set]; exact hd q (by simp [hq]))
      (fun q hq r hr => hinj q (by simp [hq]) r (by simp [hr]))
    refine ⟨dst', ?_, by simpa using h2, ?_, ?_⟩
    · unfold copyPairs at *
      rw [List.foldlM_cons]
      simp only [copyOne, List.getElem?_eq_getElem hp1, if_pos hp2, Outcome.ok_bind]
      exact h1
    · intro q hq
      rcases List.mem_cons.1 hq with rfl | hq
      · by_cases hex : ∃ r ∈ ps, q.2 = r.2
        · obtain ⟨r, hr, he⟩ := hex
          rw [he, h3 r hr, hinj q (by simp) r (by simp [hr]) he]
        · have hex' : ∀ r ∈ ps, q.2 ≠ r.2 := fun r hr h => hex ⟨r, hr, h⟩
          rw [h4 q.2 hex', List.getElem?_set_self hp2, List.getElem?_eq_getElem hp1]
          rfl
      · exact h3 q hq
    · intro o ho
      rw [h4 o (fun q hq => ho q (by simp [hq])),
        List.getElem?_set_ne (Ne.symm (ho p (by simp)))]

theorem copyLine_eq [Neg α] (parity : Bool) (src : List α) (n cs cd : ℕ) (dst : List α) :
    copyLine parity src n cs cd dst =
      copyPairs parity src ((List.range n).map fun i => (cs + i, cd + i)) dst := by
  unfold copyLine copyPairs
  rw [List.foldlM_map]

/-- `foldlM` over a flattened list. -/
theorem foldlM_flatMap {β γ S : Type} (f : S → γ → Outcome S) (g : β → List γ) (l : List β)
    (s : S) :
    (l.flatMap g).foldlM f s = l.foldlM (fun s b => (g b).foldlM f s) s := by
  induction l generalizing s with
  | nil => rfl
  | cons b l ih =>
    rw [List.flatMap_cons, List.foldlM_append, List.foldlM_cons]
    congr 1
    funext s'
    exact ih s'

/-! ## Reachable address pairs, independent of the order of the axes -/

/-- Address pairs of the box given by a list of axes (dimension, two strides). -/
def Reach : List (ℕ × ℕ × ℕ) → ℕ → ℕ → Prop
  | [], x, y => x = 0 ∧ y = 0
  | a :: as, x, y => ∃ i < a.1, ∃ x' y', Reach as x' y' ∧ x = i * a.2.1 + x' ∧ y = i * a.2.2 + y'

theorem Reach.perm {as bs : List (ℕ × ℕ × ℕ)} (h : as.Perm bs) (x y : ℕ) :
    Reach as x y ↔ Reach bs x y := by
  induction h generalizing x y with
  | nil => rfl
  | cons a _ ih => simp only [Reach, ih]
  | swap a b l =>
    simp only [Reach]
    constructor
    · rintro ⟨i, hi, x1, y1, ⟨j, hj, x2, y2, h, rfl, rfl⟩, rfl, rfl⟩
      exact ⟨j, hj, _, _, ⟨i, hi, x2, y2, h, rfl, rfl⟩, by omega, by omega⟩
    · rintro ⟨i, hi, x1, y1, ⟨j, hj, x2, y2, h, rfl, rfl⟩, rfl, rfl⟩
      exact ⟨j, hj, _, _, ⟨i, hi, x2, y2, h, rfl, rfl⟩, by omega, by omega⟩
  | trans _ _ ih1 ih2 => rw [ih1, ih2]

theorem reach_iff (as : List (ℕ × ℕ × ℕ)) (x y : ℕ) :
    Reach as x y ↔ ∃ idx, InBox (as.map fun a => a.1) idx ∧
      x = dot idx (as.map fun a => a.2.1) ∧ y = dot idx (as.map fun a => a.2.2) := by
  induction as generalizing x y with
  | nil =>
    simp only [Reach, List.map_nil]
    constructor
    · rintro ⟨rfl, rfl⟩; exact ⟨[], List.Forall₂.nil, by simp [dot], by simp [dot]⟩
    · rintro ⟨idx, h, rfl, rfl⟩; cases h; simp [dot]
  | cons a as ih =>
    simp only [Reach, ih, List.map_cons]
    constructor
    · rintro ⟨i, hi, x', y', ⟨idx, hb, rfl, rfl⟩, rfl, rfl⟩
      exact ⟨i :: idx, List.Forall₂.cons hi hb, by rw [dot_cons], by rw [dot_cons]⟩
    · rintro ⟨idx, hb, rfl, rfl⟩
      cases hb with
      | @cons _ i _ is h1 h2 =>
        exact ⟨i, h1, _, _, ⟨is, h2, rfl, rfl⟩, by rw [dot_cons], by rw [dot_cons]⟩

/-- Zip three lists into axes. -/
def axesOf (dims ls ld : List ℕ) : List (ℕ × ℕ × ℕ) := dims.zip (ls.zip ld)

theorem axesOf_dims {dims ls ld : List ℕ} (hs : ls.length = dims.length)
    (hd : ld.length = dims.length) : (axesOf dims ls ld).map (fun a => a.1) = dims := by
  unfold axesOf
  exact List.map_fst_zip (by simp; omega)

theorem axesOf_ls {dims ls ld : List ℕ} (hs : ls.length = dims.length)
    (hd : ld.length = dims.length) : (axesOf dims ls ld).map (fun a => a.2.1) = ls := by
  unfold axesOf
  have : (fun a : ℕ × ℕ × ℕ => a.2.1) = Prod.fst ∘ Prod.snd := rfl
  rw [this, ← List.map_map, List.map_snd_zip (by simp; omega), List.map_fst_zip (by omega)]

theorem axesOf_ld {dims ls ld : List ℕ} (hs : ls.length = dims.length)
    (hd : ld.length = dims.length) : (axesOf dims ls ld).map (fun a => a.2.2) = ld := by
  unfold axesOf
  have : (fun a : ℕ × ℕ × ℕ => a.2.2) = Prod.snd ∘ Prod.snd := rfl
  rw [this, ← List.map_map, List.map_snd_zip (by simp; omega), List.map_snd_zip (by omega)]

theorem axesOf_map (as : List (ℕ × ℕ × ℕ)) :
    axesOf (as.map fun a => a.1) (as.map fun a => a.2.1) (as.map fun a => a.2.2) = as := by
  unfold axesOf
  induction as with
  | nil => rfl
  | cons a as ih => simp [ih]

theorem reach_axesOf {dims ls ld : List ℕ} (hs : ls.length = dims.length)
    (hd : ld.length = dims.length) (x y : ℕ) :
    Reach (axesOf dims ls ld) x y ↔ ∃ idx, InBox dims idx ∧ x = dot idx ls ∧ y = dot idx ld := by
  rw [reach_iff, axesOf_dims hs hd, axesOf_ls hs hd, axesOf_ld hs hd]

theorem axesOf_append {d1 d2 s1 s2 l1 l2 : List ℕ} (hs : s1.length = d1.length)
    (hd : l1.length = d1.length) :
    axesOf (d1 ++ d2) (s1 ++ s2) (l1 ++ l2) = axesOf d1 s1 l1 ++ axesOf d2 s2 l2 := by
  unfold axesOf
  rw [List.zip_append (by omega), List.zip_append (by simp; omega)]

theorem Reach.append (as bs : List (ℕ × ℕ × ℕ)) (x y : ℕ) :
    Reach (as ++ bs) x y ↔ ∃ x1 y1 x2 y2, Reach as x1 y1 ∧ Reach bs x2 y2 ∧
      x = x1 + x2 ∧ y = y1 + y2 := by
  induction as generalizing x y with
  | nil =>
    simp only [List.nil_append, Reach]
    constructor
    · intro h; exact ⟨0, 0, x, y, ⟨rfl, rfl⟩, h, by omega, by omega⟩
    · rintro ⟨_, _, x2, y2, ⟨rfl, rfl⟩, h, rfl, rfl⟩; simpa using h
  | cons a as ih =>
    simp only [List.cons_append, Reach, ih]
    constructor
    · rintro ⟨i, hi, _, _, ⟨x1, y1, x2, y2, h1, h2, rfl, rfl⟩, rfl, rfl⟩
      exact ⟨_, _, x2, y2, ⟨i, hi, x1, y1, h1, rfl, rfl⟩, h2, by omega, by omega⟩
    · rintro ⟨_, _, x2, y2, ⟨i, hi, x1, y1, h1, rfl, rfl⟩, h2, rfl, rfl⟩
      exact ⟨i, hi, _, _, ⟨x1, y1, x2, y2, h1, h2, rfl, rfl⟩, by omega, by omega⟩

/-- A contiguous (row-major) tail: both strides of every axis are the product of the later
dimensions. -/
def Contiguous : List ℕ → List ℕ → List ℕ → Prop
  | [], [], [] => True
  | _ :: ds, s :: ss, l :: ll => s = ds.prod ∧ l = ds.prod ∧ Contiguous ds ss ll
  | _, _, _ => False

theorem Contiguous.reach {d s l : List ℕ} (h : Contiguous d s l) (x y : ℕ) :
    Reach (axesOf d s l) x y ↔ x = y ∧ x < d.prod := by
  induction d generalizing s l x y with
  | nil =>
    cases s <;> cases l <;> simp only [Contiguous] at h
    simp only [axesOf, List.zip_nil_left, Reach, List.prod_nil]
    omega
  | cons d ds ih =>
    cases s with
    | nil => cases l <;> simp [Contiguous] at h
    | cons s ss =>
      cases l with
      | nil => simp [Contiguous] at h
      | cons l ll =>
        obtain ⟨rfl, rfl, hc⟩ := h
        have := ih hc
        simp only [axesOf, List.zip_cons_cons, Reach, List.prod_cons] at *
        simp only [this]
        constructor
        · rintro ⟨i, hi, x', y', ⟨rfl, hlt⟩, rfl, rfl⟩
          refine ⟨rfl, ?_⟩
          calc i * ds.prod + x' < i * ds.prod + ds.prod := by omega
            _ = (i + 1) * ds.prod := by ring
            _ ≤ d * ds.prod := Nat.mul_le_mul_right _ hi
        · rintro ⟨rfl, hlt⟩
          have hpos : 0 < ds.prod := by
            rcases Nat.eq_zero_or_pos ds.prod with h0 | h0
            · rw [h0] at hlt; omega
            · exact h0
          refine ⟨x / ds.prod, Nat.div_lt_of_lt_mul (by rw [Nat.mul_comm]; exact hlt),
            x % ds.prod, x % ds.prod, ⟨rfl, Nat.mod_lt _ hpos⟩, ?_, ?_⟩
          all_goals rw [Nat.mul_comm]; exact (Nat.div_add_mod x _).symm

/-! ## `runKernel` -/

/-- What `findLine` finds. -/
theorem findLine_spec (dims ls ld : List ℕ) (oobS oobD : ℕ) (hs : ls.length = dims.length)
    (hd : ld.length = dims.length) (lr : ℕ) (hlr : lr < dims.length)
    (hc : Contiguous (dims.drop lr) (ls.drop lr) (ld.drop lr)) :
    let r := findLine dims ls ld oobS oobD lr (dims.drop (lr + 1)).prod
    r.1 < dims.length ∧ r.2 = (dims.drop r.1).prod ∧
      Contiguous (dims.drop r.1) (ls.drop r.1) (ld.drop r.1) := by
  have hprod : ∀ k, k < dims.length →
      (dims.drop (k + 1)).prod * dims.getD k 0 = (dims.drop k).prod := by
    intro k hk
    rw [List.drop_eq_getElem_cons hk, List.prod_cons, List.getD_eq_getElem _ _ hk, Nat.mul_comm]
  induction lr with
  | zero =>
    intro r
    have hr : r = (0, (dims.drop 0).prod) := by
      simp only [r, findLine]
      rw [hprod 0 hlr]
      split <;> rfl
    rw [hr]
    exact ⟨hlr, rfl, hc⟩
  | succ lr ih =>
    intro r
    simp only [r, findLine]
    rw [hprod (lr + 1) hlr]
    split
    · rename_i h
      apply ih (by omega)
      rw [List.drop_eq_getElem_cons (by omega : lr < dims.length),
        List.drop_eq_getElem_cons (by omega : lr < ls.length),
        List.drop_eq_getElem_cons (by omega : lr < ld.length)]
      rw [List.getD_eq_getElem _ _ (by omega), List.getD_eq_getElem _ _ (by omega)] at h
      exact ⟨h.1, h.2, hc⟩
    · exact ⟨hlr, rfl, hc⟩

/-- The kernel copies along some list of address pairs that are exactly the pairs of the box. -/
theorem runKernel_pairs [Neg α] (parity : Bool) (src : List α) (sOff : ℕ) (dst : List α) (dOff : ℕ)
    {dims ls ld : List ℕ} (hs : ls.length = dims.length) (hd : ld.length = dims.length)
    (hr : 0 < dims.length) (hp : 0 < dims.prod) (oobS oobD : ℕ) :
    ∃ pairs, runKernel parity src sOff dst dOff dims ls ld dims.length oobS oobD =
        copyPairs parity src pairs dst ∧
      ∀ x y, (x, y) ∈ pairs ↔ ∃ x' y', Reach (axesOf dims ls ld) x' y' ∧
        x = sOff + x' ∧ y = dOff + y' := by
  unfold runKernel
  split
  · rename_i hlast
    have hc : Contiguous (dims.drop (dims.length - 1)) (ls.drop (dims.length - 1))
        (ld.drop (dims.length - 1)) := by
      have e1 : ∀ (l : List ℕ), l.length = dims.length →
          l.drop (dims.length - 1) = [l.getD (dims.length - 1) 0] := by
        intro l hl
        rw [List.drop_eq_getElem_cons (by omega), List.drop_eq_nil_of_le (by omega),
          List.getD_eq_getElem _ _ (by omega)]
      rw [e1 dims rfl, e1 ls hs, e1 ld hd, hlast.1, hlast.2]
      simp [Contiguous]
    have hspec := findLine_spec dims ls ld oobS oobD hs hd (dims.length - 1) (by omega) hc
    have hone : (dims.drop (dims.length - 1 + 1)).prod = 1 := by
      rw [List.drop_eq_nil_of_le (by omega)]; rfl
    rw [hone] at hspec
    obtain ⟨h1, h2, h3⟩ := hspec
    generalize hfl : findLine dims ls ld oobS oobD (dims.length - 1) 1 = r at *
    obtain ⟨lr, n⟩ := r
    simp only at h1 h2 h3 ⊢
    have hlen : (dims.take lr).length = lr := by rw [List.length_take]; omega
    have hlenS : (ls.take lr).length = lr := by rw [List.length_take]; omega
    have hlenD : (ld.take lr).length = lr := by rw [List.length_take]; omega
    have hn : (dims.drop lr).getD 0 0 * (ls.drop lr).getD 0 0 = n ∧
        (dims.drop lr).getD 0 0 * (ld.drop lr).getD 0 0 = n := by
      rw [List.drop_eq_getElem_cons (by omega : lr < dims.length),
        List.drop_eq_getElem_cons (by omega : lr < ls.length),
        List.drop_eq_getElem_cons (by omega : lr < ld.length)] at h3
      rw [h2, List.drop_eq_getElem_cons (by omega : lr < dims.length),
        List.drop_eq_getElem_cons (by omega : lr < ls.length),
        List.drop_eq_getElem_cons (by omega : lr < ld.length)]
      simp only [Contiguous] at h3
      simp only [List.getD_cons_zero, List.prod_cons, h3.1, h3.2.1, and_self]
    have key := kernelLine_eq parity src sOff dst dOff (d1 := dims.take lr) (d2 := dims.drop lr)
      (ls1 := ls.take lr) (ls2 := ls.drop lr) (ld1 := ld.take lr) (ld2 := ld.drop lr)
      (by omega) (by omega) (by simp; omega) (by simp; omega) (by simp; omega)
      (by rw [List.take_append_drop]; exact hp) hn.1 hn.2
    simp only [List.take_append_drop, hlen] at key
    refine ⟨(tuples (dims.take lr)).flatMap fun idx => (List.range n).map fun i =>
      (sOff + dot idx (ls.take lr) + i, dOff + dot idx (ld.take lr) + i), ?_, ?_⟩
    · rw [key]
      simp only [copyLine_eq]
      unfold copyPairs
      rw [foldlM_flatMap]
    · intro x y
      have hax : axesOf dims ls ld = axesOf (dims.take lr) (ls.take lr) (ld.take lr) ++
          axesOf (dims.drop lr) (ls.drop lr) (ld.drop lr) := by
        rw [← axesOf_append (by omega) (by omega)]
        simp only [List.take_append_drop]
      rw [hax]
      simp only [List.mem_flatMap, mem_tuples, List.mem_map, List.mem_range, Prod.mk.injEq,
        Reach.append, h3.reach, reach_axesOf (by omega : (ls.take lr).length = (dims.take lr).length)
          (by omega : (ld.take lr).length = (dims.take lr).length), ← h2]
      constructor
      · rintro ⟨idx, hb, i, hi, rfl, rfl⟩
        exact ⟨_, _, ⟨_, _, i, i, ⟨idx, hb, rfl, rfl⟩, ⟨rfl, hi⟩, rfl, rfl⟩, by omega, by omega⟩
      · rintro ⟨_, _, ⟨_, _, i, j, ⟨idx, hb, rfl, rfl⟩, ⟨hij, hi⟩, rfl, rfl⟩, rfl, rfl⟩
        subst hij
        exact ⟨idx, hb, i, hi, by omega, by omega⟩
  · refine ⟨pairsOf dims ls ld sOff dOff, ?_, ?_⟩
    · rw [kernelPoint_eq parity src sOff dst dOff hs hd hr hp]
      unfold copyPairs pairsOf
      rw [List.foldlM_map]
    · intro x y
      simp only [pairsOf, List.mem_map, mem_tuples, Prod.mk.injEq, reach_axesOf hs hd]
      constructor
      · rintro ⟨idx, hb, rfl, rfl⟩
        exact ⟨_, _, ⟨idx, hb, rfl, rfl⟩, rfl, rfl⟩
      · rintro ⟨_, _, ⟨idx, hb, rfl, rfl⟩, rfl, rfl⟩
        exact ⟨idx, hb, rfl, rfl⟩

/-- Any copy along the pairs of the box achieves the specification. -/
theorem moved_of_pairs [Neg α] (parity : Bool) {dims ls ld : List ℕ} {src : List α} {sOff : ℕ}
    {dst : List α} {dOff : ℕ} (hf : Fits dims ls ld src sOff dst dOff) (pairs : List (ℕ × ℕ))
    (hpairs : ∀ x y, (x, y) ∈ pairs ↔ ∃ x' y', Reach (axesOf dims ls ld) x' y' ∧
        x = sOff + x' ∧ y = dOff + y') :
    ∃ dst', copyPairs parity src pairs dst = .ok dst' ∧
      Moved parity dims ls ld src sOff dst dOff dst' := by
  have hm : ∀ x y, (x, y) ∈ pairs ↔ ∃ idx, InBox dims idx ∧ x = sOff + dot idx ls ∧
      y = dOff + dot idx ld := by
    intro x y
    rw [hpairs]
    simp only [reach_axesOf hf.lenS hf.lenD]
    constructor
    · rintro ⟨_, _, ⟨idx, hb, rfl, rfl⟩, rfl, rfl⟩; exact ⟨idx, hb, rfl, rfl⟩
    · rintro ⟨idx, hb, rfl, rfl⟩; exact ⟨_, _, ⟨idx, hb, rfl, rfl⟩, rfl, rfl⟩
  obtain ⟨dst', h1, h2, h3, h4⟩ := copyPairs_spec parity src pairs dst
    (by
      rintro ⟨x, y⟩ hp
      obtain ⟨idx, hb, rfl, rfl⟩ := (hm x y).1 hp
      exact hf.src idx hb)
    (by
      rintro ⟨x, y⟩ hp
      obtain ⟨idx, hb, rfl, rfl⟩ := (hm x y).1 hp
      exact hf.dst idx hb)
    (by
      rintro ⟨x, y⟩ hp ⟨x', y'⟩ hp' heq
      obtain ⟨idx, hb, rfl, rfl⟩ := (hm x y).1 hp
      obtain ⟨idx', hb', rfl, rfl⟩ := (hm x' y').1 hp'
      simp only at heq ⊢
      rw [hf.inj idx idx' hb hb' (by omega)])
  refine ⟨dst', h1, h2, ?_, ?_⟩
  · intro idx hb
    exact h3 (sOff + dot idx ls, dOff + dot idx ld) ((hm _ _).2 ⟨idx, hb, rfl, rfl⟩)
  · intro o ho
    apply h4
    rintro ⟨x, y⟩ hp
    obtain ⟨idx, hb, rfl, rfl⟩ := (hm x y).1 hp
    exact ho idx hb

/-- The specification determines the result. -/
theorem Moved.unique [Neg α] {parity : Bool} {dims ls ld : List ℕ} {src : List α} {sOff : ℕ}
    {dst : List α} {dOff : ℕ} {d1 d2 : List α}
    (h1 : Moved parity dims ls ld src sOff dst dOff d1)
    (h2 : Moved parity dims ls ld src sOff dst dOff d2) : d1 = d2 := by
  apply List.ext_getElem?
  intro o
  by_cases h : ∃ idx, InBox dims idx ∧ o = dOff + dot idx ld
  · obtain ⟨idx, hb, rfl⟩ := h
    rw [h1.moved idx hb, h2.moved idx hb]
  · have h' : ∀ idx, InBox dims idx → o ≠ dOff + dot idx ld := fun idx hb e => h ⟨idx, hb, e⟩
    rw [h1.frame o h', h2.frame o h']

end TAT
