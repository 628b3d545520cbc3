import Verif.Svd.Model
import Verif.Decomp.Whole
import Verif.Qr.Kernel

/-!
# `calculate_svd` factorises a matrix if LAPACK does
-/

namespace TAT

variable {α β : Type}

/-- The assumption about `gesvd`: the lengths of the three results, and their product is the matrix.
`c` takes a singular value to a scalar (`real_scalar` to `ScalarType`).  All matrices are
column-major. -/
def GesvdOk [Semiring α] [Zero β] (c : β → α) (gesvd : Gesvd α β) : Prop :=
  ∀ n m data, 0 < n → 0 < m → data.length = n * m → ∃ u s vt, gesvd n m data = (u, s, vt) ∧
    u.length = n * min n m ∧ s.length = min n m ∧ vt.length = min n m * m ∧
    ∀ i < n, ∀ j < m, data.getD (i + j * n) 0 = ((List.range (min n m)).map fun l =>
      u.getD (i + l * n) 0 * c (s.getD l 0) * vt.getD (l + j * min n m) 0).sum

/-- A further assumption about `gesvd`: the columns of the first result and the rows of the last one
are orthonormal.  `conj` is the conjugation of the scalars. -/
def GesvdOrtho [CommRing α] (conj : α →+* α) (gesvd : Gesvd α β) : Prop :=
  ∀ n m data u s vt, 0 < n → 0 < m → data.length = n * m → gesvd n m data = (u, s, vt) →
    (∀ l < min n m, ∀ l' < min n m, ((List.range n).map fun i =>
      conj (u.getD (i + l * n) 0) * u.getD (i + l' * n) 0).sum = if l = l' then 1 else 0) ∧
    ∀ l < min n m, ∀ l' < min n m, ((List.range m).map fun j =>
      conj (vt.getD (l + j * min n m) 0) * vt.getD (l' + j * min n m) 0).sum =
        if l = l' then 1 else 0

/-- What holds for the values `gesvd` returns, whatever the matrix. -/
def GesvdAll (gesvd : Gesvd α β) (P : List β → Prop) : Prop :=
  ∀ n m data, 0 < n → 0 < m → data.length = n * m → P (gesvd n m data).2.1

/-- A further assumption about `gesvd`: the values are not negative and descending. -/
def GesvdValues [LinearOrder β] [Zero β] (gesvd : Gesvd α β) : Prop :=
  GesvdAll gesvd fun s => (∀ x ∈ s, 0 ≤ x) ∧ s.Pairwise (· ≥ ·)

/-- The weights of a product with singular values between. -/
abbrev valueWeight [Zero β] (c : β → α) (g : List β) (l : ℕ) : α := c (g.getD l 0)

/-- What `calculate_svd` computes. -/
def SvdFactors [Semiring α] [Zero β] (c : β → α) (m n : ℕ) (data d1 : List α) (g : List β)
    (d2 : List α) : Prop :=
  g.length = min m n ∧ MatrixFactors (valueWeight c) m n data d1 g d2

/-- The columns of the first factor and the rows of the second one are orthonormal if those made by
LAPACK are. -/
def SvdOrtho [CommRing α] (gesvd : Gesvd α β) (m n : ℕ) (d1 d2 : List α) : Prop :=
  ∀ conj : α →+* α, GesvdOrtho conj gesvd →
    ColsOrtho conj m (min m n) d1 ∧ RowsOrtho conj (min m n) n d2

theorem calculateSvdKernel_spec [CommRing α] [Zero β] {c : β → α} {gesvd : Gesvd α β}
    (h : GesvdOk c gesvd) {m n : ℕ} (hm : 0 < m) (hn : 0 < n) {data : List α}
    (hd : data.length = m * n) : ∃ r, calculateSvdKernel gesvd m n data = r ∧
      r.1.length = m * min m n ∧ r.2.2.length = min m n * n ∧
      SvdFactors c m n data r.1 r.2.1 r.2.2 ∧ SvdOrtho gesvd m n r.1 r.2.2 ∧
      ∀ P, GesvdAll gesvd P → P r.2.1 := by
  obtain ⟨u, s, vt, e, h1, h2, h3, h4⟩ := h n m data hn hm (by rw [hd, Nat.mul_comm])
  refine ⟨(vt, s, u), by unfold calculateSvdKernel; rw [e], ?_, ?_, ⟨?_, fun i hi j hj => ?_⟩,
    fun conj ho => ?_, fun P hP => ?_⟩
  · dsimp only; rw [h3, Nat.min_comm, Nat.mul_comm]
  · dsimp only; rw [h1, Nat.min_comm, Nat.mul_comm]
  · dsimp only; rw [h2, Nat.min_comm]
  · have := h4 j hj i hi
    rw [Nat.add_comm, Nat.min_comm] at this
    rw [this]
    congr 1
    apply List.map_congr_left
    intro l _
    simp only [Nat.add_comm]
    ring
  · obtain ⟨o1, o2⟩ := ho n m data u s vt hn hm (by rw [hd, Nat.mul_comm]) e
    rw [Nat.min_comm] at o1 o2
    refine ⟨fun l hl l' hl' => ?_, fun l hl l' hl' => ?_⟩
    · rw [← o2 l hl l' hl']
      simp only [Nat.add_comm]
    · rw [← o1 l hl l' hl']
      simp only [Nat.add_comm]
  · have := hP n m data hn hm (by rw [hd, Nat.mul_comm])
    rwa [e] at this

/-- `calculate_svd` factorises. -/
theorem calculateSvd_spec [CommRing α] [Zero β] {c : β → α} {gesvd : Gesvd α β}
    (h : GesvdOk c gesvd) (junk : ℕ → α) :
    KernelOk (calculateSvd gesvd junk) fun m n data d1 g d2 =>
      SvdFactors c m n data d1 g d2 ∧ SvdOrtho gesvd m n d1 d2 ∧
        ∀ P, GesvdAll gesvd P → P g := by
  intro m n data d1 d2 hm hn hd h1 h2
  unfold calculateSvd
  by_cases hgt : m > n
  · have hle : n ≤ m := le_of_lt hgt
    rw [Nat.min_eq_right hle] at h1 h2
    dsimp only
    rw [if_pos hgt, if_pos hgt]
    obtain ⟨x, x1, x2, x3⟩ := matrixTranspose_getD hm hn hd
      (dst := (List.range (n * m)).map junk) (by simp [Nat.mul_comm])
    obtain ⟨r, r1, r2, r3, ⟨r4, r5⟩, r6, r7⟩ := calculateSvdKernel_spec h (m := n) (n := m) hn hm
      (data := x) (by rw [x2, Nat.mul_comm])
    rw [Nat.min_eq_left hle] at r2 r3 r4
    obtain ⟨y2, a1, a2, a3⟩ := matrixTranspose_getD hn hn (src := r.1) (dst := d2) r2 h2
    obtain ⟨y1, b1, b2, b3⟩ := matrixTranspose_getD hn hm (src := r.2.2) (dst := d1) r3
      (by rw [h1, Nat.mul_comm])
    refine ⟨(y1, r.2.1, y2), ?_, ?_, ?_, ⟨?_, fun i hi j hj => ?_⟩, fun conj ho => ?_, r7⟩
    · simp only [x1, Outcome.bind, r1, a1, b1]
    · dsimp only
      rw [Nat.min_eq_right hle, b2, Nat.mul_comm]
    · dsimp only
      rw [Nat.min_eq_right hle, a2]
    · dsimp only
      rw [Nat.min_eq_right hle, r4]
    · have := r5 j hj i hi
      rw [x3 i hi j hj] at this
      rw [this, Nat.min_eq_right hle, Nat.min_eq_left hle]
      congr 1
      apply List.map_congr_left
      intro l hl
      rw [List.mem_range] at hl
      rw [← a3 j hj l hl, ← b3 l hl i hi]
      ring
    · obtain ⟨o1, o2⟩ := r6 conj ho
      rw [Nat.min_eq_left hle] at o1 o2
      rw [Nat.min_eq_right hle]
      refine ⟨fun l hl l' hl' => ?_, fun l hl l' hl' => ?_⟩
      · rw [← o2 l hl l' hl']
        congr 1
        refine List.map_congr_left fun i hi => ?_
        rw [List.mem_range] at hi
        rw [b3 l hl i hi, b3 l' hl' i hi]
      · rw [← o1 l hl l' hl']
        congr 1
        refine List.map_congr_left fun j hj => ?_
        rw [List.mem_range] at hj
        rw [a3 j hj l hl, a3 j hj l' hl']
  · have hle : m ≤ n := Nat.le_of_not_gt hgt
    dsimp only
    rw [if_neg hgt]
    obtain ⟨r, r1, r2, r3, r4⟩ := calculateSvdKernel_spec h hm hn hd
    refine ⟨r, by rw [r1], r2, r3, r4⟩

end TAT
