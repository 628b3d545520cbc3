import Verif.Ed.Lemmas
import Mathlib.Data.List.FinRange
import Mathlib.Data.List.Nodup

/-!
# The names and the bonds of the square lattice
-/

namespace TAT.Ed

theorem dot_not_digit {a : ℕ} : '.' ∉ (toString a).toList := fun h => by
  rw [Diag.toString_toList] at h
  have := Nat.isDigit_of_mem_toDigits (by decide) (by decide) h
  revert this
  decide

theorem nodeName_toList (p : ℕ × ℕ) : (nodeName p).toList = (toString p.1).toList ++ '.' :: (toString p.2).toList := by
  simp [nodeName, String.toList_append]

theorem nodeName_injective : Function.Injective nodeName := by
  rintro ⟨a, b⟩ ⟨c, d⟩ h
  have h := congrArg String.toList h
  rw [nodeName_toList, nodeName_toList] at h
  obtain ⟨h1, -, h2⟩ := List.append_cons_inj_of_notMem (x₁ := (toString a).toList) dot_not_digit dot_not_digit |>.1 h
  rw [Diag.toString_toList, Diag.toString_toList] at h1 h2
  exact Prod.ext (toDigits_inj h1) (toDigits_inj h2)

theorem squareNode_ok (n1 n2 : ℕ) : NodesOk (squareNode n1 n2) where
  inj := by
    rintro ⟨a, b⟩ ⟨c, d⟩ h
    have h := nodeName_injective h
    simp only [Prod.mk.injEq, Fin.val_inj] at h ⊢
    exact h
  prime := by
    intro p q h
    have h := congrArg String.toList h
    rw [squareNode, nodeName_toList, String.toList_append] at h
    have : '_' ∈ (toString p.1.val).toList := by
      cases ht : (toString p.1.val).toList with
      | nil =>
        rw [ht] at h
        exact absurd (congrArg List.head? h) (by simp)
      | cons c l =>
        rw [ht] at h
        have := congrArg List.head? h
        simp only [List.cons_append, List.head?_cons] at this
        have : c = '_' := by simpa using this
        exact this ▸ List.mem_cons_self
    rw [Diag.toString_toList] at this
    have := Nat.isDigit_of_mem_toDigits (by decide) (by decide) this
    revert this
    decide
  op := by
    intro p h
    have : '.' ∈ (squareNode n1 n2 p).toList := by
      rw [squareNode, nodeName_toList]
      simp
    simp only [List.mem_cons, List.not_mem_nil, or_false] at h
    rcases h with h | h | h | h <;> rw [h] at this <;> revert this <;> decide

/-- All sites. -/
def sites (n1 n2 : ℕ) : List (Fin n1 × Fin n2) := List.finRange n1 ×ˢ List.finRange n2

theorem sites_nodup (n1 n2 : ℕ) : (sites n1 n2).Nodup := (List.nodup_finRange n1).product (List.nodup_finRange n2)

theorem mem_sites {n1 n2 : ℕ} (p : Fin n1 × Fin n2) : p ∈ sites n1 n2 :=
  List.mem_product.2 ⟨List.mem_finRange _, List.mem_finRange _⟩

theorem nodeNames_eq (n1 n2 : ℕ) : nodeNames n1 n2 = (sites n1 n2).map (squareNode n1 n2) := by
  rw [nodeNames, ← List.map_coe_finRange_eq_range, ← List.map_coe_finRange_eq_range, sites]
  show _ = ((List.finRange n1).flatMap fun a => (List.finRange n2).map (Prod.mk a)).map _
  rw [List.map_flatMap, List.flatMap_map]
  simp only [List.map_map]
  rfl

theorem squareBonds_nodup (n1 n2 : ℕ) : (squareBonds n1 n2).Nodup := by
  have hd : ∀ (m k : ℕ) (f : ℕ → ℕ → (ℕ × ℕ) × (ℕ × ℕ)), (∀ i j, (f i j).1 = (i, j)) →
      ((List.range m).flatMap fun i => (List.range k).map fun j => f i j).Nodup := by
    intro m k f hf
    rw [List.nodup_flatMap]
    refine ⟨fun i _ => List.nodup_range.map fun a b h => ?_, ?_⟩
    · have := congrArg Prod.fst h
      rw [hf, hf] at this
      exact (Prod.mk.inj this).2
    · refine List.nodup_range.imp fun {a b} hab => ?_
      intro x hx hy
      obtain ⟨j, -, rfl⟩ := List.mem_map.1 hx
      obtain ⟨j', -, h⟩ := List.mem_map.1 hy
      have := congrArg Prod.fst h
      rw [hf, hf] at this
      exact hab (Prod.mk.inj this).1.symm
  rw [squareBonds, List.nodup_append]
  refine ⟨hd _ _ _ fun i j => rfl, hd _ _ _ fun i j => rfl, ?_⟩
  intro x hx y hy hxy
  subst hxy
  simp only [List.mem_flatMap, List.mem_map] at hx hy
  obtain ⟨i, -, j, -, rfl⟩ := hx
  obtain ⟨i', -, j', -, h⟩ := hy
  simp only [Prod.mk.injEq] at h
  omega

theorem mem_squareBonds {n1 n2 : ℕ} {x : (ℕ × ℕ) × (ℕ × ℕ)} : x ∈ squareBonds n1 n2 ↔
    ∃ p q : Fin n1 × Fin n2, Neighbours p q ∧ x = ((p.1.val, p.2.val), (q.1.val, q.2.val)) := by
  simp only [squareBonds, List.mem_append, List.mem_flatMap, List.mem_map, List.mem_range, Neighbours]
  constructor
  · rintro (⟨i, hi, j, hj, rfl⟩ | ⟨i, hi, j, hj, rfl⟩)
    · exact ⟨(⟨i, by omega⟩, ⟨j, hj⟩), (⟨i + 1, by omega⟩, ⟨j, hj⟩), Or.inl ⟨rfl, rfl⟩, rfl⟩
    · exact ⟨(⟨i, hi⟩, ⟨j, by omega⟩), (⟨i, hi⟩, ⟨j + 1, by omega⟩), Or.inr ⟨rfl, rfl⟩, rfl⟩
  · rintro ⟨⟨a, b⟩, ⟨c, d⟩, (⟨h1, h2⟩ | ⟨h1, h2⟩), rfl⟩
    · have hc := c.isLt
      simp only at h1 h2
      subst h2
      exact Or.inl ⟨a.val, by omega, d.val, d.isLt, by rw [h1]⟩
    · have hd := d.isLt
      simp only at h1 h2
      subst h1
      exact Or.inr ⟨c.val, c.isLt, b.val, by omega, by rw [h2]⟩

/-- The bonds are those of all neighbours, each one once. -/
theorem squareBonds_eq (n1 n2 : ℕ) : ∃ ls : List ((Fin n1 × Fin n2) × (Fin n1 × Fin n2)), ls.Nodup ∧
    (∀ p q, (p, q) ∈ ls ↔ Neighbours p q) ∧
    squareBonds n1 n2 = ls.map fun l => ((l.1.1.val, l.1.2.val), (l.2.1.val, l.2.2.val)) := by
  have hinj : Function.Injective fun l : (Fin n1 × Fin n2) × (Fin n1 × Fin n2) =>
      ((l.1.1.val, l.1.2.val), (l.2.1.val, l.2.2.val)) := by
    rintro ⟨⟨a, b⟩, c, d⟩ ⟨⟨a', b'⟩, c', d'⟩ h
    simp only [Prod.mk.injEq, Fin.val_inj] at h ⊢
    exact h
  have : squareBonds n1 n2 ∈ Set.range (List.map fun l : (Fin n1 × Fin n2) × (Fin n1 × Fin n2) =>
      ((l.1.1.val, l.1.2.val), (l.2.1.val, l.2.2.val))) := by
    rw [Set.range_list_map]
    intro x hx
    obtain ⟨p, q, -, rfl⟩ := mem_squareBonds.1 hx
    exact ⟨(p, q), rfl⟩
  obtain ⟨ls, h⟩ := this
  refine ⟨ls, List.Nodup.of_map _ (h ▸ squareBonds_nodup n1 n2), fun p q => ?_, h.symm⟩
  rw [← List.mem_map_of_injective hinj, h, mem_squareBonds]
  constructor
  · rintro ⟨p', q', hn, h'⟩
    have := hinj (a₁ := (p, q)) (a₂ := (p', q')) h'
    obtain ⟨rfl, rfl⟩ := Prod.mk.inj this
    exact hn
  · intro hn
    exact ⟨p, q, hn, rfl⟩

end TAT.Ed
