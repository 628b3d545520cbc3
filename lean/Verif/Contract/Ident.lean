import Verif.Contract.Fuse
import Verif.TensorMisc.Identity

/-!
# Contraction with an identity tensor
-/

set_option linter.unusedSectionVars false

namespace TAT

variable {ν σ α : Type} [LinearOrder ν] [TatSym σ]

/-- Sum with a single term. -/
theorem sumOver_single [AddCommMonoid α] {β : Type} {E : ν → List β} {F : (ν → β) → α} {ns : List ν}
    (hn : ns.Nodup) (hE : ∀ n ∈ ns, (E n).Nodup) {w w0 : ν → β} (h0 : ∀ n ∈ ns, w0 n ∈ E n)
    (h1 : ∀ n, n ∉ ns → w0 n = w n)
    (hz : ∀ w', (∀ n ∈ ns, w' n ∈ E n) → (∀ n, n ∉ ns → w' n = w n) → w' ≠ w0 → F w' = 0) :
    sumOver E F ns w = F w0 := by
  classical
  rw [sumOver_restrict (E' := fun n => [w0 n]) hn hE (fun _ _ => by simp)
    (fun n hn x hx => by rw [List.mem_singleton] at hx; rw [hx]; exact h0 n hn)
    (fun w' a b ⟨n, _, c⟩ => hz w' a b fun e => c (by rw [e]; simp))]
  have : ∀ (l : List ν) (v : ν → β), (∀ n, n ∉ l → w0 n = v n) →
      sumOver (fun n => [w0 n]) F l v = F w0 := by
    intro l
    induction l with
    | nil =>
      intro v hv
      exact congrArg F (funext fun n => (hv n (by simp)).symm)
    | cons x l ih =>
      intro v hv
      unfold sumOver
      rw [List.map_cons, List.map_nil, List.sum_cons, List.sum_nil, add_zero]
      refine ih _ fun n hn => ?_
      by_cases hx : n = x
      · subst hx; simp
      · rw [Function.update_of_ne hx]
        exact hv n (by simp [hx, hn])
  exact this ns w h1

/-- An edge `n` of the tensor is contracted with `a` of the identity, whose partner is `b`. -/
structure Link (ν : Type) where
  n : ν
  a : ν
  b : ν

/-- The position with the new edges `b` in place of the old edges `n`. -/
def relink (links : List (Link ν)) (p : ν → σ × ℕ) (m : ν) : σ × ℕ :=
  match links.find? fun x => decide (x.n = m) with
  | some x => p x.b
  | none => p m

theorem relink_mem {links : List (Link ν)} (h : (links.map Link.n).Nodup) (p : ν → σ × ℕ)
    {x : Link ν} (hx : x ∈ links) : relink links p x.n = p x.b := by
  unfold relink
  cases hf : links.find? fun y => decide (y.n = x.n) with
  | none =>
    rw [List.find?_eq_none] at hf
    simpa using hf x hx
  | some y =>
    have : y = x := List.inj_on_of_nodup_map h (List.mem_of_find?_eq_some hf) hx
      (by simpa using List.find?_some hf)
    rw [this]

theorem relink_not {links : List (Link ν)} (p : ν → σ × ℕ) {m : ν} (hm : m ∉ links.map Link.n) :
    relink links p m = p m := by
  unfold relink
  cases hf : links.find? fun y => decide (y.n = m) with
  | none => rfl
  | some y =>
    exact absurd (List.mem_map.2 ⟨y, List.mem_of_find?_eq_some hf,
      by simpa using List.find?_some hf⟩) hm

/-- What the pairs of an identity tensor say of a position. -/
def OnDiagonal (links : List (Link ν)) (p : ν → σ × ℕ) : Prop :=
  ∀ x ∈ links, (p x.a).1 + (p x.b).1 = 0 ∧ (p x.a).2 = (p x.b).2

instance (links : List (Link ν)) (p : ν → σ × ℕ) : Decidable (OnDiagonal links p) :=
  inferInstanceAs (Decidable (∀ x ∈ links, _))

theorem contracted_identity [CommRing α] {t i : Tensor ν σ α} (h : WF t) (hi : WF i)
    {links : List (Link ν)} (hn : (links.map Link.n).Nodup)
    (hab : i.names.Perm (links.map Link.a ++ links.map Link.b))
    (hp : Pairs t.names i.names (links.map fun x => (x.n, x.a)))
    (hm : Matched t i (links.map fun x => (x.n, x.a)))
    (hpm : ∀ x ∈ links, ∀ s, dimM (mapOf i x.a) s = dimM (mapOf i x.b) (-s))
    (hel : ∀ p, ValidPos i p → elem i p = some (if OnDiagonal links p then 1 else 0))
    {p : ν → σ × ℕ} (hv : ∀ x ∈ links, (p x.b).2 < dimM (mapOf i x.b) (p x.b).1) :
    contracted t i (links.map fun x => (x.n, x.a)) p =
      contractSign t i (links.map fun x => (x.n, x.a)) (relink links p)
        (partner (links.map fun x => (x.n, x.a)) p (relink links p)) • amp t (relink links p) := by
  set cs := links.map fun x => (x.n, x.a) with hcs
  have c1 : cs.map Prod.fst = links.map Link.n := by rw [hcs, List.map_map]; rfl
  have c2 : cs.map Prod.snd = links.map Link.a := by rw [hcs, List.map_map]; rfl
  have habn := hab.nodup_iff.1 hi.nodup
  rw [List.nodup_append] at habn
  have hmem : ∀ x ∈ links, (x.n, x.a) ∈ cs := fun x hx => List.mem_map.2 ⟨x, hx, rfl⟩
  have pa : ∀ (w : ν → σ × ℕ), ∀ x ∈ links, partner cs p w x.a = (-(w x.n).1, (w x.n).2) :=
    fun w x hx => partner_common hp.nodup2 p w (hmem x hx)
  have pb : ∀ (w : ν → σ × ℕ), ∀ x ∈ links, partner cs p w x.b = p x.b := by
    intro w x hx
    refine partner_free p w ?_
    rw [c2]
    intro hc
    exact habn.2.2 _ hc _ (List.mem_map_of_mem hx) rfl
  have diag : ∀ w : ν → σ × ℕ, OnDiagonal links (partner cs p w) ↔ ∀ x ∈ links, w x.n = p x.b := by
    intro w
    unfold OnDiagonal
    refine forall₂_congr fun x hx => ?_
    rw [pa w x hx, pb w x hx]
    constructor
    · rintro ⟨h1, h2⟩
      exact Prod.ext (neg_add_eq_zero.1 h1) h2
    · intro e
      rw [e]
      exact ⟨neg_add_cancel _, rfl⟩
  have dims : ∀ x ∈ links, ∀ s, dimM (mapOf t x.n) s = dimM (mapOf i x.b) s := by
    intro x hx s
    have h1 := hm.maps (x.n, x.a) (hmem x hx) s
    have h2 := hpm x hx (-s)
    rw [neg_neg] at h2
    rw [← h2]
    unfold dimM
    rw [h1]
  have hsub : ∀ x ∈ links, x.n ∈ t.names := fun x hx => hp.sub1 _ (hmem x hx)
  unfold contracted
  rw [c1]
  refine (sumOver_single (w0 := relink links p) hn (fun n hn' => ?_) (fun n hn' => ?_)
    (fun n hn' => relink_not p hn') (fun w' _ hw' hne => ?_)).trans ?_
  · obtain ⟨x, hx, rfl⟩ := List.mem_map.1 hn'
    exact edgePositions_nodup (mapOf_sorted h _ (hsub x hx))
  · obtain ⟨x, hx, rfl⟩ := List.mem_map.1 hn'
    rw [mem_edgePositions (mapOf_sorted h _ (hsub x hx)), relink_mem hn p hx, dims x hx]
    exact hv x hx
  · have hz : amp i (partner cs p w') = 0 := by
      by_cases hval : ValidPos i (partner cs p w')
      · have := hel _ hval
        rw [if_neg, amp_valid hi hval] at this
        · exact Option.some.inj this
        · intro hd
          apply hne
          funext m
          by_cases hm' : m ∈ links.map Link.n
          · obtain ⟨x, hx, rfl⟩ := List.mem_map.1 hm'
            rw [relink_mem hn p hx]
            exact (diag w').1 hd x hx
          · rw [relink_not p hm', hw' m hm']
      · exact amp_zero hi hval
    rw [hz, mul_zero, smul_zero]
  · have hd : OnDiagonal links (partner cs p (relink links p)) :=
      (diag _).2 fun x hx => relink_mem hn p hx
    have hval : ValidPos i (partner cs p (relink links p)) := by
      rw [validPos_iff hi]
      refine FineOk.perm hab.symm ⟨fun n hn' => ?_, ?_⟩
      · rcases List.mem_append.1 hn' with hn' | hn'
        · obtain ⟨x, hx, rfl⟩ := List.mem_map.1 hn'
          rw [pa _ x hx, relink_mem hn p hx, hpm x hx, neg_neg]
          exact hv x hx
        · obtain ⟨x, hx, rfl⟩ := List.mem_map.1 hn'
          rw [pb _ x hx]
          exact hv x hx
      · rw [keyOf_append, List.sum_append]
        have : ∀ l : List (Link ν), (∀ x ∈ l, x ∈ links) →
            (keyOf (l.map Link.a) (partner cs p (relink links p))).sum +
            (keyOf (l.map Link.b) (partner cs p (relink links p))).sum = 0 := by
          intro l
          induction l with
          | nil => intro _; simp [keyOf]
          | cons x l ih =>
            intro hl
            have e1 := (hd x (hl x (by simp))).1
            have e2 := ih fun y hy => hl y (by simp [hy])
            simp only [keyOf, List.map_cons, List.sum_cons] at e2 ⊢
            rw [add_add_add_comm, e1, e2, add_zero]
        exact this links fun _ hx => hx
    have := hel _ hval
    rw [if_pos hd, amp_valid hi hval] at this
    rw [Option.some.inj this, mul_one]

end TAT
