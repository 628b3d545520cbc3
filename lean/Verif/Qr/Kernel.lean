import Verif.Qr.Model
import Verif.Decomp.Isometry
import Verif.Transpose.Props

/-!
# `calculate_qr` factorises a matrix if LAPACK does
-/

namespace TAT

variable {α : Type}

/-! ## copying to the destinations -/

theorem readRange_ok {data : List α} {start len : ℕ} (h : start + len ≤ data.length) :
    readRange data start len = .ok ((data.drop start).take len) := if_pos h

theorem fillFront_all {dst l : List α} (h : l.length = dst.length) : fillFront dst l = .ok l := by
  unfold fillFront
  rw [if_pos h.le, h, List.drop_length, List.append_nil]

theorem getD_range [Zero α] (data : List α) (start len j : ℕ) (hj : j < len) :
    ((data.drop start).take len).getD j 0 = data.getD (start + j) 0 := by
  rw [List.getD_eq_getElem?_getD, List.getD_eq_getElem?_getD, List.getElem?_take_of_lt hj,
    List.getElem?_drop]

theorem readPadded_spec [Zero α] (data : List α) (before start len after : ℕ → ℕ) (w : ℕ)
    (is : List ℕ) (hw : ∀ i ∈ is, before i + len i + after i = w)
    (hr : ∀ i ∈ is, start i + len i ≤ data.length) :
    ∃ res, readPadded data before start len after is = .ok res ∧ res.length = is.length * w ∧
      ∀ k (hk : k < is.length), ∀ j < w, res.getD (k * w + j) 0 =
        if before is[k] ≤ j ∧ j < before is[k] + len is[k]
        then data.getD (start is[k] + (j - before is[k])) 0 else 0 := by
  induction is with
  | nil => exact ⟨[], rfl, by simp, fun k hk => by simp at hk⟩
  | cons i is ih =>
    obtain ⟨res, h1, h2, h3⟩ := ih (fun i hi => hw i (List.mem_cons_of_mem _ hi))
      fun i hi => hr i (List.mem_cons_of_mem _ hi)
    have hwi := hw i (by simp)
    have hri := hr i (by simp)
    set x := (data.drop (start i)).take (len i) with hx
    have hxl : x.length = len i := by rw [hx, List.length_take, List.length_drop]; omega
    have hrow : (List.replicate (before i) (0 : α) ++ x ++ List.replicate (after i) 0).length = w := by
      simp only [List.length_append, List.length_replicate, hxl]; exact hwi
    refine ⟨List.replicate (before i) 0 ++ x ++ List.replicate (after i) 0 ++ res, ?_, ?_, ?_⟩
    · unfold readPadded
      rw [readRange_ok hri, h1]
      rfl
    · rw [List.length_append, hrow, h2, List.length_cons]
      ring
    · intro k hk j hj
      cases k with
      | zero =>
        simp only [Nat.zero_mul, Nat.zero_add, List.getElem_cons_zero]
        rw [List.getD_append _ _ _ _ (by rw [hrow]; exact hj)]
        by_cases c1 : j < before i
        · rw [if_neg (by omega), List.append_assoc, List.getD_append _ _ _ _ (by simpa using c1)]
          simp [List.getD_eq_getElem?_getD, c1]
        · by_cases c2 : j < before i + len i
          · rw [if_pos ⟨by omega, c2⟩, List.append_assoc,
              List.getD_append_right _ _ _ _ (by simp; omega), List.length_replicate,
              List.getD_append _ _ _ _ (by rw [hxl]; omega), hx, getD_range _ _ _ _ (by omega)]
          · rw [if_neg (by omega), List.getD_append_right _ _ _ _ (by simp [hxl]; omega)]
            have : j - (List.replicate (before i) (0 : α) ++ x).length < after i := by
              simp [hxl]; omega
            simp only [List.getD_eq_getElem?_getD, List.getElem?_replicate, this, if_true]
            rfl
      | succ k =>
        have hk' : k < is.length := by simpa using hk
        rw [List.getD_append_right _ _ _ _ (by rw [hrow, Nat.succ_mul]; omega), hrow]
        have : (k + 1) * w + j - w = k * w + j := by rw [Nat.succ_mul]; omega
        rw [this, h3 k hk' j hj]
        rfl

theorem readPadded_range [Zero α] (data : List α) (before start len after : ℕ → ℕ) (w m : ℕ)
    (hw : ∀ i < m, before i + len i + after i = w) (hr : ∀ i < m, start i + len i ≤ data.length) :
    ∃ res, readPadded data before start len after (List.range m) = .ok res ∧ res.length = m * w ∧
      ∀ k < m, ∀ j < w, res.getD (k * w + j) 0 =
        if before k ≤ j ∧ j < before k + len k then data.getD (start k + (j - before k)) 0 else 0 := by
  obtain ⟨res, h1, h2, h3⟩ := readPadded_spec data before start len after w (List.range m)
    (fun i hi => hw i (List.mem_range.1 hi)) fun i hi => hr i (List.mem_range.1 hi)
  refine ⟨res, h1, by simpa using h2, fun k hk j hj => ?_⟩
  have := h3 k (by simpa using hk) j hj
  simpa using this

/-! ## the routines -/

/-- The assumption about LAPACK.  `gelqf` leaves the lower triangle of the first factor in the memory
of the matrix, and `orglq` makes the second factor from its first rows; `geqrf` leaves the upper
triangle of the second factor, and `orgqr` makes the first factor from its first columns.  All
matrices are column-major. -/
structure LapackQrOk [Semiring α] (lp : LapackQr α) : Prop where
  lq : ∀ n m data, 0 < n → 0 < m → data.length = n * m → ∃ d tau,
    lp.gelqf n m data = some (d, tau) ∧ d.length = n * m ∧
    ∀ c, c.length = min n m * m →
      (∀ l < min n m, ∀ j < m, c.getD (l + j * min n m) 0 = d.getD (l + j * n) 0) →
      ∃ q, lp.orglq (min n m) m (min n m) c tau = some q ∧ q.length = min n m * m ∧
        ∀ i < n, ∀ j < m, data.getD (i + j * n) 0 = ((List.range (min n m)).map fun l =>
          (if l ≤ i then d.getD (i + l * n) 0 else 0) * q.getD (l + j * min n m) 0).sum
  qr : ∀ n m data, 0 < n → 0 < m → data.length = n * m → ∃ d tau,
    lp.geqrf n m data = some (d, tau) ∧ d.length = n * m ∧
    ∀ c, c.length = n * min n m →
      (∀ i < n, ∀ l < min n m, c.getD (i + l * n) 0 = d.getD (i + l * n) 0) →
      ∃ q, lp.orgqr n (min n m) (min n m) c tau = some q ∧ q.length = n * min n m ∧
        ∀ i < n, ∀ j < m, data.getD (i + j * n) 0 = ((List.range (min n m)).map fun l =>
          q.getD (i + l * n) 0 * (if l ≤ j then d.getD (l + j * n) 0 else 0)).sum

/-- A further assumption about LAPACK: the rows of the matrix made by `orglq` and the columns of the
one made by `orgqr` are orthonormal.  `conj` is the conjugation of the scalars. -/
structure LapackQrOrtho [CommRing α] (conj : α →+* α) (lp : LapackQr α) : Prop where
  lq : ∀ n m data d tau c q, 0 < n → 0 < m → data.length = n * m →
    lp.gelqf n m data = some (d, tau) → c.length = min n m * m →
    (∀ l < min n m, ∀ j < m, c.getD (l + j * min n m) 0 = d.getD (l + j * n) 0) →
    lp.orglq (min n m) m (min n m) c tau = some q →
    ∀ l < min n m, ∀ l' < min n m, ((List.range m).map fun j =>
      conj (q.getD (l + j * min n m) 0) * q.getD (l' + j * min n m) 0).sum = if l = l' then 1 else 0
  qr : ∀ n m data d tau c q, 0 < n → 0 < m → data.length = n * m →
    lp.geqrf n m data = some (d, tau) → c.length = n * min n m →
    (∀ i < n, ∀ l < min n m, c.getD (i + l * n) 0 = d.getD (i + l * n) 0) →
    lp.orgqr n (min n m) (min n m) c tau = some q →
    ∀ l < min n m, ∀ l' < min n m, ((List.range n).map fun i =>
      conj (q.getD (i + l * n) 0) * q.getD (i + l' * n) 0).sum = if l = l' then 1 else 0

/-- The weights of a product of two matrices without anything between. -/
abbrev noWeight [One α] (_ : Unit) (_ : ℕ) : α := 1

/-- What `calculate_qr` computes: two factors, and the columns of the first one (the rows of the second
one) are orthonormal if those made by LAPACK are. -/
def QrFactors [CommRing α] (lp : LapackQr α) (useQr : Bool) (m n : ℕ) (data d1 : List α) (g : Unit)
    (d2 : List α) : Prop :=
  MatrixFactors noWeight m n data d1 g d2 ∧ ∀ conj : α →+* α, LapackQrOrtho conj lp →
    if useQr then ColsOrtho conj m (min m n) d1 else RowsOrtho conj (min m n) n d2

theorem lqKernel_spec [CommRing α] {lp : LapackQr α} (hlp : LapackQrOk lp) {m n : ℕ} (hm : 0 < m)
    (hn : 0 < n) (hmn : m ≤ n) {data d1 d2 : List α} (hd : data.length = m * n)
    (h1 : d1.length = m * m) (h2 : d2.length = m * n) :
    ∃ r, lqKernel lp m n m data d1 d2 = .ok r ∧ r.1.length = m * m ∧ r.2.length = m * n ∧
      QrFactors lp true m n data r.1 () r.2 := by
  have hmin : min n m = m := min_eq_right hmn
  obtain ⟨d, tau, a1, a2, a3⟩ := hlp.lq n m data hn hm (by rw [hd, Nat.mul_comm])
  rw [hmin] at a3
  have hcol : ∀ i < m, i * n + n ≤ d.length := fun i hi => by
    rw [a2]
    calc i * n + n = (i + 1) * n := by ring
      _ ≤ m * n := Nat.mul_le_mul_right _ hi
      _ = n * m := Nat.mul_comm _ _
  obtain ⟨top, t1, t2, t3⟩ := readPadded_range d (fun _ => 0) (fun i => i * n) (fun _ => m)
    (fun _ => 0) m m (fun _ _ => by simp) (fun i hi => by have := hcol i hi; omega)
  obtain ⟨low, l1, l2, l3⟩ := readPadded_range d (fun i => i) (fun i => i * n + i) (fun i => n - i)
    (fun _ => 0) n m (fun i hi => by omega)
    (fun i hi => by have := hcol i hi; omega)
  have htop : ∀ l < m, ∀ j < m, top.getD (l + j * m) 0 = d.getD (l + j * n) 0 := fun l hl j hj => by
    have := t3 j hj l hl
    rw [if_pos ⟨Nat.zero_le _, by omega⟩] at this
    rw [Nat.add_comm l, this]
    congr 1
    omega
  obtain ⟨q, q1, q2, q3⟩ := a3 top t2 htop
  refine ⟨(q, low), ?_, q2, l2, fun j hj i hi => ?_, fun conj ho l hl l' hl' => ?_⟩
  · unfold lqKernel
    rw [a1]
    simp only [orError, Outcome.bind, t1, fillFront_all (t2.trans h1.symm), q1, l1,
      fillFront_all (l2.trans h2.symm)]
  · have := q3 i hi j hj
    rw [Nat.add_comm i, Nat.min_eq_left hmn] at *
    rw [this]
    congr 1
    apply List.map_congr_left
    intro l hl
    rw [List.mem_range] at hl
    have e := l3 l hl i hi
    rw [e, mul_one, mul_comm, Nat.add_comm l]
    congr 1
    by_cases hle : l ≤ i
    · rw [if_pos hle, if_pos ⟨hle, by omega⟩]
      congr 1
      omega
    · rw [if_neg hle, if_neg (by omega)]
  · rw [Nat.min_eq_left hmn] at hl hl' ⊢
    have := ho.lq n m data d tau top q hn hm (by rw [hd, Nat.mul_comm]) a1 (by rw [hmin]; exact t2)
      (by rw [hmin]; exact htop) (by rw [hmin]; exact q1)
    rw [hmin] at this
    rw [← this l hl l' hl']
    simp only [Nat.add_comm]

theorem qrKernel_spec [CommRing α] {lp : LapackQr α} (hlp : LapackQrOk lp) {m n : ℕ} (hm : 0 < m)
    (hn : 0 < n) (hmn : m ≤ n) {data d1 d2 : List α} (hd : data.length = m * n)
    (h1 : d1.length = m * m) (h2 : d2.length = m * n) :
    ∃ r, qrKernel lp m n m data d1 d2 = .ok r ∧ r.1.length = m * m ∧ r.2.length = m * n ∧
      QrFactors lp false m n data r.1 () r.2 := by
  have hmin : min n m = m := min_eq_right hmn
  obtain ⟨d, tau, a1, a2, a3⟩ := hlp.qr n m data hn hm (by rw [hd, Nat.mul_comm])
  rw [hmin] at a3
  have hcol : ∀ i < m, n * i + n ≤ d.length := fun i hi => by
    rw [a2]
    calc n * i + n = n * (i + 1) := by ring
      _ ≤ n * m := Nat.mul_le_mul_left _ hi
  have hleft : (d.drop 0).take (n * m) = d := by
    rw [List.drop_zero, ← a2, List.take_length]
  obtain ⟨up, l1, l2, l3⟩ := readPadded_range d (fun _ => 0) (fun i => n * i) (fun i => i + 1)
    (fun i => m - (i + 1)) m m (fun i hi => by omega)
    (fun i hi => by have := hcol i hi; omega)
  obtain ⟨q, q1, q2, q3⟩ := a3 d a2 fun _ _ _ _ => rfl
  refine ⟨(up, q), ?_, l2, by rw [q2, Nat.mul_comm], fun j hj i hi => ?_,
    fun conj ho l hl l' hl' => ?_⟩
  · unfold qrKernel
    rw [a1]
    have e1 : readRange d 0 (n * m) = .ok d := by
      rw [readRange_ok (by rw [a2]; omega), hleft]
    have e2 : readRange d (n * m) (n * m - n * m) = .ok [] := by
      rw [readRange_ok (by rw [a2]; omega)]
      simp
    simp only [orError, Outcome.bind, e1, fillFront_all (a2.trans ((Nat.mul_comm n m).trans h2.symm)),
      q1, l1, e2, List.append_nil, fillFront_all (l2.trans h1.symm)]
  · have := q3 i hi j hj
    rw [Nat.add_comm i, Nat.min_eq_left hmn] at *
    rw [this]
    congr 1
    apply List.map_congr_left
    intro l hl
    rw [List.mem_range] at hl
    have e := l3 j hj l hl
    rw [e, mul_one, mul_comm, Nat.add_comm i]
    congr 1
    by_cases hle : l ≤ j
    · rw [if_pos hle, if_pos ⟨Nat.zero_le _, by omega⟩]
      congr 1
      rw [Nat.mul_comm j]
      omega
    · rw [if_neg hle, if_neg (by omega)]
  · rw [Nat.min_eq_left hmn] at hl hl'
    have := ho.qr n m data d tau d q hn hm (by rw [hd, Nat.mul_comm]) a1 (by rw [hmin]; exact a2)
      (fun _ _ _ _ => rfl) (by rw [hmin]; exact q1)
    rw [hmin] at this
    rw [← this l hl l' hl']
    simp only [Nat.add_comm]

theorem calculateQrKernel_spec [CommRing α] {lp : LapackQr α} (hlp : LapackQrOk lp) (useQr : Bool)
    {m n : ℕ} (hm : 0 < m) (hn : 0 < n) (hmn : m ≤ n) {data d1 d2 : List α}
    (hd : data.length = m * n) (h1 : d1.length = m * m) (h2 : d2.length = m * n) :
    ∃ r, calculateQrKernel lp useQr m n m data d1 d2 = .ok r ∧ r.1.length = m * m ∧
      r.2.length = m * n ∧ QrFactors lp useQr m n data r.1 () r.2 := by
  unfold calculateQrKernel
  cases useQr
  · exact qrKernel_spec hlp hm hn hmn hd h1 h2
  · exact lqKernel_spec hlp hm hn hmn hd h1 h2

/-- `matrix_transpose` in terms of elements. -/
theorem matrixTranspose_getD [Neg α] [Zero α] {m n : ℕ} (hm : 0 < m) (hn : 0 < n)
    {src dst : List α} (hs : src.length = m * n) (hd : dst.length = m * n) :
    ∃ dst', matrixTranspose m n src dst = .ok dst' ∧ dst'.length = m * n ∧
      ∀ i < m, ∀ j < n, dst'.getD (j * m + i) 0 = src.getD (i * n + j) 0 := by
  obtain ⟨r, r1, r2, r3⟩ := C14_matrix_transpose hm hn hs hd
  refine ⟨r, r1, r2, fun i hi j hj => ?_⟩
  rw [List.getD_eq_getElem?_getD, List.getD_eq_getElem?_getD, ← r3 i hi j hj, Nat.add_comm]

/-- `calculate_qr` factorises. -/
theorem calculateQr_spec [CommRing α] {lp : LapackQr α} (hlp : LapackQrOk lp) (junk : ℕ → α)
    (useQr : Bool) : KernelOk (fun m n data d1 d2 =>
      (calculateQr lp junk useQr m n data d1 d2).bind fun r => .ok (r.1, (), r.2))
      (QrFactors lp useQr) := by
  intro m n data d1 d2 hm hn hd h1 h2
  unfold calculateQr
  by_cases hgt : m > n
  · have hle : n ≤ m := le_of_lt hgt
    rw [Nat.min_eq_right hle] at h1 h2
    dsimp only
    rw [if_pos hgt, if_pos hgt]
    obtain ⟨x, x1, x2, x3⟩ := matrixTranspose_getD hm hn hd
      (dst := (List.range (n * m)).map junk) (by simp [Nat.mul_comm])
    obtain ⟨r, r1, r2, r3, r4, r5⟩ := calculateQrKernel_spec hlp (!useQr) (m := n) (n := m) hn hm hle
      (data := x) (d1 := (List.range (n * n)).map junk) (d2 := (List.range (n * m)).map junk)
      (by rw [x2, Nat.mul_comm]) (by simp) (by simp)
    obtain ⟨y2, a1, a2, a3⟩ := matrixTranspose_getD hn hn (src := r.1) (dst := d2) r2 h2
    obtain ⟨y1, b1, b2, b3⟩ := matrixTranspose_getD hn hm (src := r.2) (dst := d1) r3
      (by rw [h1, Nat.mul_comm])
    refine ⟨(y1, (), y2), ?_, ?_, ?_, fun i hi j hj => ?_, fun conj ho => ?_⟩
    · simp only [x1, Outcome.bind, r1, a1, b1]
    · dsimp only
      rw [Nat.min_eq_right hle, b2, Nat.mul_comm]
    · dsimp only
      rw [Nat.min_eq_right hle, a2]
    · have := r4 j hj i hi
      rw [x3 i hi j hj] at this
      rw [this, Nat.min_eq_right hle, Nat.min_eq_left hle]
      congr 1
      apply List.map_congr_left
      intro l hl
      rw [List.mem_range] at hl
      rw [← a3 j hj l hl, ← b3 l hl i hi]
      ring
    · have := r5 conj ho
      rw [Nat.min_eq_right hle]
      rw [Nat.min_eq_left hle] at this
      cases useQr with
      | true =>
        simp only [Bool.not_true, Bool.false_eq_true, if_false] at this
        rw [if_pos rfl]
        intro l hl l' hl'
        rw [← this l hl l' hl']
        congr 1
        refine List.map_congr_left fun i hi => ?_
        rw [List.mem_range] at hi
        rw [b3 l hl i hi, b3 l' hl' i hi]
      | false =>
        simp only [Bool.not_false, if_true] at this
        rw [if_neg (by simp)]
        intro l hl l' hl'
        rw [← this l hl l' hl']
        congr 1
        refine List.map_congr_left fun j hj => ?_
        rw [List.mem_range] at hj
        rw [a3 j hj l hl, a3 j hj l' hl']
  · have hle : m ≤ n := Nat.le_of_not_gt hgt
    rw [Nat.min_eq_left hle] at h1 h2
    dsimp only
    rw [if_neg hgt, if_neg hgt]
    obtain ⟨r, r1, r2, r3, r4⟩ := calculateQrKernel_spec hlp useQr hm hn hle hd h1 h2
    refine ⟨(r.1, (), r.2), ?_, ?_, ?_, r4⟩
    · simp only [r1, Outcome.bind]
    · dsimp only; rw [Nat.min_eq_left hle, r2]
    · dsimp only; rw [Nat.min_eq_left hle, r3]

end TAT
