import Verif.Contract.Spec
import Verif.EdgeOp.Fresh
import Mathlib.Tactic.Ring
import Mathlib.Tactic.Linarith

/-!
# The product of two merged tensors
-/

set_option linter.unusedSectionVars false

namespace TAT

variable {ν σ α : Type}

/-! ## one matrix product -/

/-- Place of the element `(row, column)` of a row-major matrix, or of its transpose. -/
def cell (straight : Bool) (rows columns i j : ℕ) : ℕ :=
  if straight then i * columns + j else j * rows + i

theorem cell_lt {s : Bool} {m k j l : ℕ} (hj : j < m) (hl : l < k) : cell s m k j l < m * k := by
  unfold cell
  split
  · calc j * k + l < j * k + k := by omega
      _ = (j + 1) * k := by ring
      _ ≤ m * k := Nat.mul_le_mul_right _ hj
  · calc l * m + j < l * m + m := by omega
      _ = (l + 1) * m := by ring
      _ ≤ k * m := Nat.mul_le_mul_right _ hl
      _ = m * k := Nat.mul_comm _ _

/-- The call of `gemm` made for one block. -/
def gemmCall [Zero α] (right1 right2 : Bool) (m n k : ℕ) (alpha : α) (data1 data2 dst : List α) :
    GemmArgs α :=
  ⟨right2, !right1, n, m, k, alpha, data2, if right2 then k else n, data1,
    if right1 then k else m, 0, dst, n⟩

theorem gemm_block [CommRing α] {g : Gemm α} (hg : GemmOk g) (right1 right2 : Bool) {m n k : ℕ}
    (hm : 0 < m) (hn : 0 < n) (hk : 0 < k) (alpha : α) {data1 data2 dst : List α}
    (h1 : m * k ≤ data1.length) (h2 : k * n ≤ data2.length) (h3 : m * n ≤ dst.length) :
    ∃ c, g (gemmCall right1 right2 m n k alpha data1 data2 dst) = .ok c ∧ c.length = dst.length ∧
      (∀ j < m, ∀ i < n, c[j * n + i]? = some (alpha * ((List.range k).map fun l =>
        data1.getD (cell right1 m k j l) 0 * data2.getD (cell right2 n k i l) 0).sum)) ∧
      ∀ q, m * n ≤ q → c[q]? = dst[q]? := by
  have e1 : ∀ i l, matIdx right2 (if right2 then k else n) i l = cell right2 n k i l := by
    intro i l
    unfold matIdx cell
    cases right2 <;> simp <;> omega
  have e2 : ∀ l j, matIdx (!right1) (if right1 then k else m) l j = cell right1 m k j l := by
    intro l j
    unfold matIdx cell
    cases right1 <;> simp <;> omega
  have hc : ∀ i < n, ∀ j < m, i + j * n < m * n := by
    intro i hi j hj
    calc i + j * n < n + j * n := by omega
      _ = (j + 1) * n := by ring
      _ ≤ m * n := Nat.mul_le_mul_right _ hj
  have hl : GemmLegal (gemmCall right1 right2 m n k alpha data1 data2 dst) := by
    refine ⟨?_, ?_, le_refl _, ?_, ?_, ?_⟩
    · unfold gemmCall; exact le_refl _
    · unfold gemmCall; cases right1 <;> simp
    · intro i hi l hl
      have := cell_lt (s := right2) (m := n) (k := k) hi hl
      rw [Nat.mul_comm n k] at this
      change matIdx right2 (if right2 then k else n) i l < data2.length
      rw [e1]; omega
    · intro l hl j hj
      have := cell_lt (s := right1) (m := m) (k := k) hj hl
      change matIdx (!right1) (if right1 then k else m) l j < data1.length
      rw [e2]; omega
    · intro i hi j hj
      have := hc i hi j hj
      change i + j * n < dst.length
      omega
  obtain ⟨c, c1, c2, c3, c4⟩ := hg _ rfl hn hm hk hl
  have c2' : c.length = dst.length := c2
  refine ⟨c, c1, c2', fun j hj i hi => ?_, fun q hq => ?_⟩
  · have h := c3 i hi j hj
    have hlt := hc i hi j hj
    have hlen : j * n + i < c.length := by omega
    change c.getD (i + j * n) 0 = alpha * ((List.range k).map fun l =>
      data2.getD (matIdx right2 (if right2 then k else n) i l) 0 *
      data1.getD (matIdx (!right1) (if right1 then k else m) l j) 0).sum at h
    rw [Nat.add_comm, List.getD_eq_getElem?_getD, List.getElem?_eq_getElem hlen,
      Option.getD_some] at h
    rw [List.getElem?_eq_getElem hlen, h]
    congr 3
    apply List.map_congr_left
    intro l _
    rw [e1, e2, mul_comm]
  · refine c4 q fun i hi j hj h => ?_
    have := hc i hi j hj
    have h : q = i + j * n := h
    omega

/-! ## the batch -/

/-- The arguments of a job, given the memory it writes to. -/
def Job.args (j : Job σ α) (c : List α) : GemmArgs α :=
  ⟨j.ta, j.tb, j.m, j.n, j.k, j.alpha, j.a, j.lda, j.b, j.ldb, j.beta, c, j.ldc⟩

theorem gemmBatch_eq [TatSym σ] (g : Gemm α) (jobs : List (Job σ α))
    (blocks : List (List σ × List α)) :
    gemmBatch g jobs blocks = jobs.foldlM (runJob g) blocks := by
  unfold gemmBatch
  split
  · rw [List.foldlM_cons]
    cases runJob g blocks _ <;> rfl
  · rfl

theorem gemmBatch_spec [TatSym σ] {g : Gemm α} {jobs : List (Job σ α)} (val : List σ → List α)
    {blocks : List (List σ × List α)} (hs : OMap.Sorted blocks) (hn : (jobs.map Job.key).Nodup)
    (hb : ∀ j ∈ jobs, j.offset = 0 ∧ ∃ d, OMap.find? blocks j.key = some d ∧
      g (j.args d) = .ok (val j.key)) :
    ∃ m, gemmBatch g jobs blocks = .ok m ∧ OMap.Sorted m ∧
      (∀ k, k ∈ OMap.keys m ↔ k ∈ OMap.keys blocks) ∧
      (∀ j ∈ jobs, OMap.find? m j.key = some (val j.key)) ∧
      ∀ k, (∀ j ∈ jobs, j.key ≠ k) → OMap.find? m k = OMap.find? blocks k := by
  rw [gemmBatch_eq]
  induction jobs generalizing blocks with
  | nil => exact ⟨blocks, rfl, hs, fun _ => Iff.rfl, by simp, fun _ _ => rfl⟩
  | cons c src ih =>
    rw [List.map_cons, List.nodup_cons] at hn
    obtain ⟨ho, d, hd, hbd⟩ := hb c (by simp)
    have hne : ∀ c' ∈ src, c'.key ≠ c.key := fun c' hc' he =>
      hn.1 (he ▸ List.mem_map_of_mem (f := Job.key) hc')
    obtain ⟨m, h1, h2, h3, h4, h5⟩ := ih (blocks := OMap.set blocks c.key (val c.key)) (hs.set _ _)
      hn.2 fun c' hc' => by
        obtain ⟨ho', d', hd', hbd'⟩ := hb c' (by simp [hc'])
        exact ⟨ho', d', by rw [OMap.find?_set, if_neg (hne c' hc')]; exact hd', hbd'⟩
    refine ⟨m, ?_, h2, fun k => ?_, fun c' hc' => ?_, fun k hk => ?_⟩
    · rw [List.foldlM_cons]
      have : runJob g blocks c = .ok (OMap.set blocks c.key (val c.key)) := by
        unfold Job.args at hbd
        unfold runJob
        simp only [hd, ho, List.drop_zero, hbd, List.take_zero, List.nil_append]
        rfl
      rw [this]
      exact h1
    · rw [h3, OMap.mem_keys_set]
      constructor
      · rintro (rfl | h)
        · exact OMap.find?_isSome.1 (by rw [hd]; rfl)
        · exact h
      · exact Or.inr
    · rcases List.mem_cons.1 hc' with rfl | hc'
      · rw [h5 _ hne, OMap.find?_set, if_pos rfl]
      · exact h4 c' hc'
    · rw [h5 k fun c' hc' => hk c' (by simp [hc']), OMap.find?_set,
        if_neg (Ne.symm (hk c (by simp)))]

/-! ## the loop over the blocks of the product -/

/-- The block after the loop, before the matrix products. -/
def clearBlock [Zero α] (j : Job σ α) (d : List α) : List α :=
  if j.m ≠ 0 ∧ j.n ≠ 0 ∧ j.k = 0 then d.map fun _ => 0 else d

theorem productPass_eq [Zero α] {job : List σ → Outcome (Job σ α)} {jb : List σ → Job σ α}
    {blocks : List (List σ × List α)} (h : ∀ b ∈ blocks, job b.1 = .ok (jb b.1)) :
    productPass job blocks = .ok (blocks.map fun b => (b.1, clearBlock (jb b.1) b.2),
      (blocks.filter fun b => decide ((jb b.1).m ≠ 0 ∧ (jb b.1).n ≠ 0 ∧ (jb b.1).k ≠ 0)).map
        fun b => jb b.1) := by
  induction blocks with
  | nil => rfl
  | cons b blocks ih =>
    have ih := ih fun x hx => h x (by simp [hx])
    unfold productPass
    rw [h b (by simp), ih]
    simp only [Outcome.bind, List.map_cons, List.filter_cons]
    unfold clearBlock
    by_cases hm : (jb b.1).m = 0 <;> by_cases hn : (jb b.1).n = 0 <;>
      by_cases hk : (jb b.1).k = 0 <;> simp [hm, hn, hk]

end TAT
