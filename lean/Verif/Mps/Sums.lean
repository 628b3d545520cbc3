import Verif.Mps.Spec
import Mathlib.Tactic.Ring

/-!
# Helper lemmas for chains: the sums
-/

namespace TAT.Mps

open Finset

variable {α : Type} [CommSemiring α]

theorem sumSites_congr {d : ℕ} : ∀ {n : ℕ} {f g : List ℕ → α}, (∀ s, s.length = n → f s = g s) →
    sumSites d n f = sumSites d n g
  | 0, f, g, h => h [] rfl
  | n + 1, f, g, h => by
    refine sum_congr rfl fun s _ => ?_
    exact sumSites_congr fun ss hs => h (s :: ss) (by rw [List.length_cons, hs])

theorem sumSites_congr' {d : ℕ} : ∀ {n : ℕ} {f g : List ℕ → α},
    (∀ s, s.length = n → (∀ x ∈ s, x < d) → f s = g s) → sumSites d n f = sumSites d n g
  | 0, f, g, h => h [] rfl (by simp)
  | n + 1, f, g, h => by
    refine sum_congr rfl fun s hs => ?_
    refine sumSites_congr' fun ss hl hd => h (s :: ss) (by rw [List.length_cons, hl]) fun x hx => ?_
    rcases List.mem_cons.1 hx with rfl | hx
    · exact mem_range.1 hs
    · exact hd x hx

theorem sumSites_sum {ι : Type} {d : ℕ} (S : Finset ι) : ∀ {n : ℕ} (f : ι → List ℕ → α),
    sumSites d n (fun s => ∑ i ∈ S, f i s) = ∑ i ∈ S, sumSites d n (f i)
  | 0, f => rfl
  | n + 1, f => by
    simp only [sumSites]
    rw [sum_comm]
    exact sum_congr rfl fun s _ => sumSites_sum S _

theorem sumSites_mul {d : ℕ} (c : α) : ∀ {n : ℕ} (f : List ℕ → α),
    sumSites d n (fun s => c * f s) = c * sumSites d n f
  | 0, f => rfl
  | n + 1, f => by
    simp only [sumSites]
    rw [mul_sum]
    exact sum_congr rfl fun s _ => sumSites_mul c _

theorem overlap_nil (d l1 l2 : ℕ) : overlap d ([] : List (MpsSite α)) l1 l2 = 1 := by
  simp [overlap, sumSites, psi]

/-- One site more on the right side of the calculation. -/
theorem overlap_cons (d m : ℕ) (a : ℕ → ℕ → ℕ → α) (q : List (MpsSite α)) (l1 l2 : ℕ) :
    overlap d ((m, a) :: q) l1 l2 = ∑ r2 ∈ range m, ∑ s ∈ range d,
      (∑ r1 ∈ range m, overlap d q r1 r2 * a s l1 r1) * a s l2 r2 := by
  rw [overlap, List.length_cons, sumSites]
  rw [sum_comm (s := range m)]
  refine sum_congr rfl fun s _ => ?_
  simp only [psi, List.headD_cons, List.tail_cons, overlap]
  calc _ = sumSites d q.length fun t => ∑ r2 ∈ range m, ∑ r1 ∈ range m,
        (a s l1 r1 * a s l2 r2) * (psi q r1 t * psi q r2 t) := by
        refine sumSites_congr fun t _ => ?_
        rw [sum_mul_sum, sum_comm]
        refine sum_congr rfl fun r2 _ => sum_congr rfl fun r1 _ => by ring
    _ = _ := by
        rw [sumSites_sum]
        refine sum_congr rfl fun r2 _ => ?_
        rw [sumSites_sum, sum_mul]
        refine sum_congr rfl fun r1 _ => ?_
        rw [sumSites_mul]
        ring

/-- One site more on the left of the operator. -/
theorem bondSum_succ (d i m : ℕ) (h : ℕ → ℕ → ℕ → ℕ → α) (a : ℕ → ℕ → ℕ → α) (q : List (MpsSite α))
    (l1 l2 : ℕ) : bondSum d h (i + 1) ((m, a) :: q) l1 l2 = ∑ s ∈ range d, ∑ r1 ∈ range m, ∑ r2 ∈ range m,
      a s l1 r1 * a s l2 r2 * bondSum d h i q r1 r2 := by
  rw [bondSum, List.length_cons, sumSites]
  refine sum_congr rfl fun s _ => ?_
  simp only [psi, List.headD_cons, List.tail_cons, List.set_cons_succ, List.getD_cons_succ]
  calc _ = sumSites d q.length fun t => ∑ r1 ∈ range m, ∑ r2 ∈ range m, (a s l1 r1 * a s l2 r2) *
        ∑ x ∈ range d, ∑ y ∈ range d,
          psi q r1 t * h (t.getD i 0) (t.getD (i + 1) 0) x y * psi q r2 ((t.set i x).set (i + 1) y) := by
        refine sumSites_congr fun t _ => ?_
        have : ∀ x y, (∑ r ∈ range m, a s l1 r * psi q r t) * h (t.getD i 0) (t.getD (i + 1) 0) x y *
            (∑ r ∈ range m, a s l2 r * psi q r ((t.set i x).set (i + 1) y)) =
            ∑ r1 ∈ range m, ∑ r2 ∈ range m, (a s l1 r1 * a s l2 r2) *
              (psi q r1 t * h (t.getD i 0) (t.getD (i + 1) 0) x y *
                psi q r2 ((t.set i x).set (i + 1) y)) := fun x y => by
          rw [sum_mul, sum_mul_sum]
          refine sum_congr rfl fun r1 _ => sum_congr rfl fun r2 _ => by ring
        simp only [this]
        simp only [mul_sum]
        rw [sum_congr rfl fun x _ => sum_comm, sum_comm]
        refine sum_congr rfl fun r1 _ => ?_
        rw [sum_congr rfl fun x _ => sum_comm, sum_comm]
    _ = _ := by
        rw [sumSites_sum]
        refine sum_congr rfl fun r1 _ => ?_
        rw [sumSites_sum]
        refine sum_congr rfl fun r2 _ => ?_
        rw [sumSites_mul]
        rfl

theorem bond_sums_one (d m0 m1 m2 : ℕ) (h : ℕ → ℕ → ℕ → ℕ → α) (a b : ℕ → ℕ → ℕ → α) (L : ℕ → ℕ → α)
    (u : ℕ → α) :
    (∑ r1 ∈ range m2, ∑ r2 ∈ range m2,
      (∑ k2 ∈ range m1, ∑ o ∈ range d,
        (∑ l2 ∈ range m0, ∑ p ∈ range d,
          (∑ x ∈ range d, ∑ y ∈ range d,
            (∑ k1 ∈ range m1, (∑ l1 ∈ range m0, L l1 l2 * a x l1 k1) * b y k1 r1) * h x y p o) *
            a p l2 k2) * b o k2 r2) * (u r1 * u r2)) =
    ∑ l1 ∈ range m0, ∑ l2 ∈ range m0, L l1 l2 * ∑ x ∈ range d, ∑ y ∈ range d, ∑ p ∈ range d,
      ∑ o ∈ range d, (∑ k ∈ range m1, a x l1 k * ∑ r ∈ range m2, b y k r * u r) * h x y p o *
        (∑ k ∈ range m1, a p l2 k * ∑ r ∈ range m2, b o k r * u r) := by
  simp only [mul_sum, sum_mul, ← sum_product']
  refine sum_nbij'
    (fun (r1, r2, k2, o, l2, p, x, y, k1, l1) => (l1, l2, x, y, p, o, (k2, r2), k1, r1))
    (fun (l1, l2, x, y, p, o, (k2, r2), k1, r1) => (r1, r2, k2, o, l2, p, x, y, k1, l1)) ?_ ?_ ?_ ?_ ?_
  · rintro ⟨r1, r2, k2, o, l2, p, x, y, k1, l1⟩ hm
    simp only [mem_product] at hm ⊢
    tauto
  · rintro ⟨l1, l2, x, y, p, o, ⟨k2, r2⟩, k1, r1⟩ hm
    simp only [mem_product] at hm ⊢
    tauto
  · rintro ⟨r1, r2, k2, o, l2, p, x, y, k1, l1⟩ _
    rfl
  · rintro ⟨l1, l2, x, y, p, o, ⟨k2, r2⟩, k1, r1⟩ _
    rfl
  · rintro ⟨r1, r2, k2, o, l2, p, x, y, k1, l1⟩ _
    ring

/-- The contractions around the operator. -/
theorem bond_sums (d m0 m1 m2 : ℕ) (h : ℕ → ℕ → ℕ → ℕ → α) (a b : ℕ → ℕ → ℕ → α) (L : ℕ → ℕ → α)
    (q : List (MpsSite α)) :
    (∑ r1 ∈ range m2, ∑ r2 ∈ range m2,
      (∑ k2 ∈ range m1, ∑ o ∈ range d,
        (∑ l2 ∈ range m0, ∑ p ∈ range d,
          (∑ x ∈ range d, ∑ y ∈ range d,
            (∑ k1 ∈ range m1, (∑ l1 ∈ range m0, L l1 l2 * a x l1 k1) * b y k1 r1) * h x y p o) *
            a p l2 k2) * b o k2 r2) * overlap d q r1 r2) =
    ∑ l1 ∈ range m0, ∑ l2 ∈ range m0, L l1 l2 * bondSum d h 0 ((m1, a) :: (m2, b) :: q) l1 l2 := by
  simp only [overlap, bondSum, List.length_cons, sumSites, ← sumSites_mul, ← sumSites_sum]
  refine sumSites_congr fun t _ => ?_
  simp only [psi, List.headD_cons, List.tail_cons, List.set_cons_succ, List.set_cons_zero,
    List.getD_cons_succ, List.getD_cons_zero]
  exact bond_sums_one d m0 m1 m2 h a b L fun r => psi q r t

/-- The bond on the left of site `k`, where the chain begins with a bond of dimension one. -/
def bondAt (p : List (MpsSite α)) (k : ℕ) : ℕ :=
  match k with
  | 0 => 1
  | k + 1 => (p[k]?.map Prod.fst).getD 1

/-- The left side of the calculation. -/
def leftOf (d : ℕ) (p : List (MpsSite α)) : ℕ → ℕ → ℕ → α
  | 0, _, _ => 1
  | k + 1, r1, r2 =>
    match p[k]? with
    | none => 0
    | some (_, a) => ∑ l2 ∈ range (bondAt p k), ∑ s ∈ range d,
        (∑ l1 ∈ range (bondAt p k), leftOf d p k l1 l2 * a s l1 r1) * a s l2 r2

theorem left_sums (d : ℕ) (p : List (MpsSite α)) (h : ℕ → ℕ → ℕ → ℕ → α) : ∀ k j : ℕ, k ≤ p.length →
    (∑ l1 ∈ range (bondAt p k), ∑ l2 ∈ range (bondAt p k),
      leftOf d p k l1 l2 * bondSum d h j (p.drop k) l1 l2) = bondSum d h (k + j) p 0 0
  | 0, j, _ => by simp [bondAt, leftOf]
  | k + 1, j, hk => by
    rw [← show k + (j + 1) = k + 1 + j by omega, ← left_sums d p h k (j + 1) (by omega)]
    obtain ⟨⟨m, a⟩, hm⟩ : ∃ x, p[k]? = some x := ⟨_, List.getElem?_eq_getElem (by omega)⟩
    have hd : p.drop k = (m, a) :: p.drop (k + 1) := by
      rw [List.drop_eq_getElem_cons (by omega)]
      rw [List.getElem?_eq_getElem (by omega), Option.some_inj] at hm
      rw [hm]
    rw [hd]
    simp only [bondSum_succ]
    have hb : bondAt p (k + 1) = m := by simp [bondAt, hm]
    simp only [hb, leftOf, hm]
    generalize bondAt p k = b
    generalize leftOf d p k = L
    generalize bondSum d h j (p.drop (k + 1)) = G
    simp only [mul_sum, sum_mul, ← sum_product']
    refine sum_nbij' (fun (r1, r2, l2, s, l1) => (l1, l2, s, r1, r2))
      (fun (l1, l2, s, r1, r2) => (r1, r2, l2, s, l1)) ?_ ?_ ?_ ?_ ?_
    · rintro ⟨r1, r2, l2, s, l1⟩ hm
      simp only [mem_product] at hm ⊢
      tauto
    · rintro ⟨l1, l2, s, r1, r2⟩ hm
      simp only [mem_product] at hm ⊢
      tauto
    · rintro ⟨r1, r2, l2, s, l1⟩ _
      rfl
    · rintro ⟨l1, l2, s, r1, r2⟩ _
      rfl
    · rintro ⟨r1, r2, l2, s, l1⟩ _
      ring

end TAT.Mps
