import Verif.Contract.Linear
import Verif.Contract.Total

/-!
# Helper lemmas: the contraction of a tensor with its conjugate
-/

set_option linter.unusedSectionVars false

namespace TAT

variable {ν σ α : Type} [LinearOrder ν] [TatSym σ]

/-- `-1` for every edge which points in and has an odd symmetry. -/
def normSign (edges : List (Edge σ)) (key : List σ) : ℤ :=
  if TatSym.isFermi σ then
    (List.zipWith (fun e s => if e.arrow = false ∧ oddInt (TatSym.fermi s) = true then (-1 : ℤ) else 1)
      edges key).prod
  else 1

/-- The sum of the squares of the moduli of the elements, with a sign for each block. -/
def signedSquares [CommRing α] (conj : α → α) (t : Tensor ν σ α) : α :=
  (t.core.blocks.map fun b =>
    normSign t.core.edges b.1 • (b.2.map fun x => x * conj x).sum).sum

theorem sum_zsmul_map [CommRing α] (z : ℤ) (l : List α) (f : α → α) :
    (l.map fun x => z • f x).sum = z • (l.map f).sum := by
  induction l with
  | nil => simp
  | cons x l ih => rw [List.map_cons, List.map_cons, List.sum_cons, List.sum_cons, ih, smul_add]

theorem others_all {A B : List ν} (h : ∀ n ∈ A, n ∈ B) : others A B = [] := by
  rw [List.eq_nil_iff_forall_not_mem]
  intro n hn
  exact (mem_others.1 hn).2 (h n (mem_others.1 hn).1)

theorem normSign_names {t : Tensor ν σ α} (h : Shaped t) (w : ν → σ × ℕ) (hf : TatSym.isFermi σ = true) :
    normSign t.core.edges (keyOf t.names w) =
      (t.names.map fun n => if (edgeOf t n).arrow = false ∧ oddAt w n = true then (-1 : ℤ) else 1).prod := by
  unfold normSign
  rw [if_pos hf]
  conv_lhs => rw [edges_named' h]
  unfold keyOf
  rw [List.zipWith_map, List.zipWith_self]
  rfl

/-- The contraction of a tensor with its conjugate, under other names, over all edges. -/
theorem norm_contracted [CommRing α] {conj : α →+* α} {t c c' : Tensor ν σ α} (h : WF t)
    (hc : IsConj conj t c) {f : ν → ν} (hn : c'.names = t.names.map f) (nd : c'.names.Nodup)
    (ha : ∀ p, amp c' p = amp c fun n => p (f n)) {ns : List ν} (hp : ns.Perm t.names)
    (p : ν → σ × ℕ) :
    contracted t c' (ns.map fun n => (n, f n)) p = signedSquares conj t := by
  have f1 : (ns.map fun n => (n, f n)).map Prod.fst = ns := by simp [List.map_map, Function.comp_def]
  have f2 : (ns.map fun n => (n, f n)).map Prod.snd = ns.map f := by
    simp [List.map_map, Function.comp_def]
  have nn : ns.Nodup := hp.nodup_iff.2 h.nodup
  have nf : (ns.map f).Nodup := by
    rw [hn] at nd
    exact (hp.map f).nodup_iff.2 nd
  unfold contracted
  rw [f1, sumOver_perm nn (fun n hn' => edgePositions_nodup (mapOf_sorted h n (hp.mem_iff.1 hn'))) hp]
  rw [sumOver_congr (F' := fun w => (fun k x => normSign t.core.edges k • (x * conj x))
    (keyOf t.names w) (amp t w)) h.nodup fun w _ _ => ?_]
  · rw [total_sum h.shaped (fun k x => normSign t.core.edges k • (x * conj x)) (by simp)]
    unfold signedSquares
    congr 1
    exact List.map_congr_left fun b _ => sum_zsmul_map _ _ _
  set v := partner (ns.map fun n => (n, f n)) p w with hv
  have hv' : ∀ n ∈ t.names, v (f n) = negPos w n := fun n hn' =>
    partner_common (by rw [f2]; exact nf) p w
      (c := (n, f n)) (List.mem_map.2 ⟨n, hp.mem_iff.2 hn', rfl⟩)
  have e1 : amp c' v = conjSign t.names w • conj (amp t w) := by
    rw [ha, ← hc.amps]
    exact amp_same fun n hn' => hv' n (hc.names ▸ hn')
  have e2 : contractSign t c' (ns.map fun n => (n, f n)) w v * conjSign t.names w =
      normSign t.core.edges (keyOf t.names w) := by
    by_cases hf : TatSym.isFermi σ = true
    swap
    · unfold contractSign conjSign normSign
      rw [if_neg hf, if_neg hf, if_neg hf, one_mul]
    rw [normSign_names h.shaped w hf]
    unfold contractSign conjSign
    rw [if_pos hf, if_pos hf, f1, f2, others_all fun n hn' => hp.mem_iff.2 hn', others_all fun n hn' => by
      rw [hn] at hn'
      exact (hp.map f).mem_iff.2 hn', List.nil_append, List.append_nil]
    have ho : ∀ n ∈ t.names, oddAt w n = oddAt v (f n) := fun n hn' => by
      unfold oddAt
      rw [hv' n hn']
      exact (TatSym.odd_neg _).symm
    have x2 : exchangeOf (oddAt v) c'.names (ns.map f) = exchangeOf (oddAt w) t.names ns := by
      have := exchangeOf_pairs (odd := oddAt w) (odd' := oddAt v)
        (cs := t.names.map fun n => (n, f n)) (cs' := ns.map fun n => (n, f n))
        (by simpa [List.map_map, Function.comp_def] using h.nodup)
        (by rw [hn] at nd; simpa [List.map_map, Function.comp_def] using nd) (hp.symm.map _) (by
          intro c hc'
          obtain ⟨n, hn', rfl⟩ := List.mem_map.1 hc'
          exact ho n hn')
      simp only [List.map_map, Function.comp_def, List.map_id'] at this
      rw [hn]
      exact this.symm
    have x1 : exchangeOf (oddAt w) t.names ns.reverse =
        exchangeOf (oddAt w) t.names ns * reversalSign (t.names.map (oddAt w)) := by
      rw [← exchangeOf_mul (oddAt w) hp.symm ns.reverse_perm.symm, exchangeOf_reverse _ nn,
        reversalSign_perm (hp.map (oddAt w))]
    have x3 : ((ns.map fun n => (n, f n)).map fun c =>
        if (edgeOf t c.1).arrow = false ∧ oddAt w c.1 = true then (-1 : ℤ) else 1).prod =
        (t.names.map fun n => if (edgeOf t n).arrow = false ∧ oddAt w n = true then (-1 : ℤ) else 1).prod := by
      rw [List.map_map]
      exact (hp.map _).prod_eq
    rw [x1, x2, x3]
    have q1 := exchangeOf_sq (oddAt w) t.names ns
    have q2 := reversalSign_sq (t.names.map (oddAt w))
    generalize exchangeOf (oddAt w) t.names ns = a at q1 ⊢
    generalize reversalSign (t.names.map (oddAt w)) = b at q2 ⊢
    generalize (t.names.map fun n => if (edgeOf t n).arrow = false ∧ oddAt w n = true then
      (-1 : ℤ) else 1).prod = d
    calc a * b * a * d * b = (a * a) * (b * b) * d := by ring
      _ = d := by rw [q1, q2, one_mul, one_mul]
  rw [e1, mul_smul_comm, smul_smul, e2]

/-- A tensor without edges is its only element. -/
theorem rank_zero [Zero α] {r : Tensor ν σ α} (h : WF r) (hn : r.names = []) {x : α}
    (hx : ∀ p, amp r p = x) : r = ⟨[], [], [([], [x])]⟩ := by
  have he : r.core.edges = [] := by
    have := h.rank
    rw [hn] at this
    exact List.eq_nil_of_length_eq_zero this.symm
  have hb := h.blocks
  rw [he] at hb
  have hs : blockShapes (([] : List (Edge σ)).map Edge.map) = [([], 1)] := by
    simp [blockShapes, choices]
  rw [hs] at hb
  obtain ⟨names, edges, blocks⟩ := r
  simp only at hn he hb
  subst hn he
  match blocks, hb with
  | [(k, [a])], hb =>
    have hk : k = [] := by simpa using hb
    subst hk
    have := hx fun _ => (0, 0)
    simp [amp, elem, elemAt, keyOf, idxOf, OMap.find?, dimsOf, rowMajor] at this
    rw [this]
  | [(k, [])], hb => simp at hb
  | [(k, a :: b :: l)], hb => simp at hb

theorem zip_odd {edges : List (Edge σ)} {a : Bool} (h : ∀ e ∈ edges, e.arrow = a) {key : List σ}
    (hl : key.length = edges.length) :
    (List.zipWith (fun e s => if e.arrow = false ∧ oddInt (TatSym.fermi s) = true then (-1 : ℤ) else 1)
      edges key).prod = if a = false ∧ oddInt (TatSym.fermi key.sum) = true then -1 else 1 := by
  induction edges generalizing key with
  | nil =>
    obtain rfl : key = [] := List.eq_nil_of_length_eq_zero hl
    rw [List.sum_nil, TatSym.fermi_zero]
    simp [oddInt]
  | cons e edges ih =>
    cases key with
    | nil => simp at hl
    | cons s key =>
      rw [List.zipWith_cons_cons, List.prod_cons, ih (fun e he => h e (List.mem_cons_of_mem _ he))
        (by simpa using hl), h e List.mem_cons_self, List.sum_cons, TatSym.odd_add]
      cases a <;> cases oddInt (TatSym.fermi s) <;> cases oddInt (TatSym.fermi key.sum) <;> simp

/-- All edges point the same way: the signs of the odd edges cancel. -/
theorem normSign_same {edges : List (Edge σ)} {a : Bool} (h : ∀ e ∈ edges, e.arrow = a)
    {key : List σ} (hl : key.length = edges.length) (h0 : key.sum = 0) : normSign edges key = 1 := by
  unfold normSign
  split
  swap
  · rfl
  rw [zip_odd h hl, h0, TatSym.fermi_zero, if_neg (by simp [oddInt])]

/-- Without signs the sum is over all elements. -/
theorem signedSquares_plain [CommRing α] (conj : α → α) {t : Tensor ν σ α} (h : WF t)
    (hs : TatSym.isFermi σ = false ∨ ∃ a, ∀ e ∈ t.core.edges, e.arrow = a) :
    signedSquares conj t = ((allElems t).map fun x => x * conj x).sum := by
  unfold signedSquares allElems
  rw [sum_flatMap]
  congr 1
  refine List.map_congr_left fun b hb => ?_
  have h1 : normSign t.core.edges b.1 = 1 := by
    rcases hs with hs | ⟨a, hs⟩
    · unfold normSign
      rw [hs, if_neg (by simp)]
    · have hm : (b.1, b.2.length) ∈ blockShapes (t.core.edges.map Edge.map) := by
        rw [← h.blocks]
        exact List.mem_map.2 ⟨b, hb, rfl⟩
      obtain ⟨c, hc, he⟩ := List.mem_map.1 hm
      obtain ⟨hc, h0⟩ := List.mem_filter.1 hc
      rw [Prod.mk.injEq] at he
      refine normSign_same hs ?_ ?_
      · rw [← he.1, List.length_map, choices_length hc, List.length_map]
      · rw [← he.1]
        exact of_decide_eq_true h0
  rw [h1, one_smul]

end TAT
