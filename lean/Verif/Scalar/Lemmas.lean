import Verif.Scalar.Model
import Verif.EdgeMisc.Props
import Verif.EdgeOp.Fresh

/-!
# Lemmas for element-wise arithmetic
-/

set_option linter.unusedSectionVars false

namespace TAT

variable {ν σ α β γ : Type}

/-! ## loops over blocks -/

theorem mapM_ok {δ ε : Type} {f : δ → Outcome ε} {g : δ → ε} {l : List δ}
    (h : ∀ x ∈ l, f x = .ok (g x)) : l.mapM f = .ok (l.map g) := by
  induction l with
  | nil => rfl
  | cons x l ih =>
    rw [List.mapM_cons, h x (by simp), ih fun y hy => h y (by simp [hy])]
    rfl

theorem mapM_range_ok {ε : Type} {f : ℕ → Outcome ε} {l : List ε} {n : ℕ} (hn : n = l.length)
    (h : ∀ (j : ℕ) (hj : j < l.length), f j = .ok l[j]) : (List.range n).mapM f = .ok l := by
  subst hn
  induction l generalizing f with
  | nil => rfl
  | cons x l ih =>
    rw [List.length_cons, List.range_succ_eq_map, List.mapM_cons, h 0 (by simp), List.mapM_map,
      ih (f := f ∘ Nat.succ) fun j hj => by
        have := h (j + 1) (by simpa using hj)
        simpa using this]
    rfl

theorem mapVec_ok (f : α → γ) {a : List α} {n : ℕ} (hn : n = a.length) :
    mapVec f a n = .ok (a.map f) := by
  refine mapM_range_ok (by simpa using hn) fun j hj => ?_
  have hj' : j < a.length := by simpa using hj
  rw [List.getElem?_eq_getElem hj', List.getElem_map]

theorem zipVec_ok (f : α → β → γ) {a : List α} {b : List β} {n : ℕ} (hn : n = a.length)
    (hb : n = b.length) : zipVec f a b n = .ok (List.zipWith f a b) := by
  refine mapM_range_ok (by simp; omega) fun j hj => ?_
  have hj' : j < a.length ∧ j < b.length := by simp at hj; omega
  rw [List.getElem?_eq_getElem hj'.1, List.getElem?_eq_getElem hj'.2, List.getElem_zipWith]

variable [LinearOrder ν] [TatSym σ]

/-! ## comparing edges -/

theorem edgeEq_iff (e e' : Edge σ) : edgeEq e e' = true ↔
    e.map = e'.map ∧ (TatSym.isFermi σ = true → e.arrow = e'.arrow) := by
  unfold edgeEq
  cases TatSym.isFermi σ <;> simp

theorem edgesEq_iff (es es' : List (Edge σ)) : edgesEq es es' = true ↔
    List.Forall₂ (fun e e' => edgeEq e e' = true) es es' := by
  induction es generalizing es' with
  | nil => cases es' <;> simp [edgesEq]
  | cons e es ih => cases es' <;> simp [edgesEq, ih]

/-! ## the union of edges -/

/-- The union of two edge maps, preferring the first. -/
def unionMap (m m' : List (σ × ℕ)) : List (σ × ℕ) :=
  m'.foldl (fun m x => if x.1 ∈ OMap.keys m then m else OMap.set m x.1 x.2) m

/-- Symmetries in both maps have the same dimension. -/
def Compatible (m m' : List (σ × ℕ)) : Prop :=
  ∀ s d d', OMap.find? m s = some d → OMap.find? m' s = some d' → d = d'

theorem unionMap_sorted (m m' : List (σ × ℕ)) (h : OMap.Sorted m) : OMap.Sorted (unionMap m m') := by
  unfold unionMap
  induction m' generalizing m with
  | nil => exact h
  | cons x m' ih =>
    rw [List.foldl_cons]
    split
    · exact ih _ h
    · exact ih _ (h.set _ _)

theorem find?_unionMap (m m' : List (σ × ℕ)) (s : σ) :
    OMap.find? (unionMap m m') s = (OMap.find? m s).or (OMap.find? m' s) := by
  unfold unionMap
  induction m' generalizing m with
  | nil => simp [OMap.find?]
  | cons x m' ih =>
    rw [List.foldl_cons, ih]
    split
    · rename_i hx
      by_cases hs : x.1 = s
      · subst hs
        obtain ⟨d, hd⟩ := Option.isSome_iff_exists.1 (OMap.find?_isSome.2 hx)
        simp [hd]
      · simp [OMap.find?, Ne.symm hs]
    · rename_i hx
      rw [OMap.find?_set]
      by_cases hs : s = x.1
      · subst hs
        rw [OMap.find?_eq_none.2 hx]
        simp [OMap.find?]
      · have hs' : ¬ x.1 = s := fun h => hs h.symm
        simp [OMap.find?, hs, hs']

theorem unionFold_ok {m m' : List (σ × ℕ)} (hn : (OMap.keys m').Nodup) (h : Compatible m m') :
    m'.foldlM unionStep m = .ok (unionMap m m') := by
  unfold unionMap
  induction m' generalizing m with
  | nil => rfl
  | cons x m' ih =>
    rw [OMap.keys_cons, List.nodup_cons] at hn
    rw [List.foldlM_cons, List.foldl_cons]
    unfold unionStep
    cases hf : OMap.find? m x.1 with
    | none =>
      rw [if_neg (OMap.find?_eq_none.1 hf)]
      refine ih hn.2 fun s d d' h1 h2 => ?_
      rw [OMap.find?_set] at h1
      by_cases hs : s = x.1
      · subst hs
        exact absurd (OMap.find?_isSome.1 (Option.isSome_iff_exists.2 ⟨_, h2⟩)) hn.1
      · have hs' : ¬ x.1 = s := fun h => hs h.symm
        rw [if_neg hs] at h1
        exact h s d d' h1 (by simp [OMap.find?, hs, h2])
    | some d =>
      have hd : d = x.2 := h x.1 d x.2 hf (by simp [OMap.find?])
      rw [if_pos (OMap.find?_isSome.1 (by rw [hf]; rfl))]
      simp only [hd, ne_eq, not_true_eq_false, if_false, Outcome.ok_bind]
      refine ih hn.2 fun s d d' h1 h2 => ?_
      by_cases hs : x.1 = s
      · subst hs
        exact absurd (OMap.find?_isSome.1 (Option.isSome_iff_exists.2 ⟨_, h2⟩)) hn.1
      · exact h s d d' h1 (by simp [OMap.find?, Ne.symm hs, h2])

theorem unionFold_error {m m' : List (σ × ℕ)} (hn : (OMap.keys m').Nodup) (h : ¬ Compatible m m') :
    (m'.foldlM unionStep m).isError = true := by
  induction m' generalizing m with
  | nil =>
    exfalso
    apply h
    intro s d d' _ h2
    simp [OMap.find?] at h2
  | cons x m' ih =>
    rw [OMap.keys_cons, List.nodup_cons] at hn
    rw [List.foldlM_cons]
    unfold unionStep
    cases hf : OMap.find? m x.1 with
    | none =>
      refine ih hn.2 fun hc => h fun s d d' h1 h2 => ?_
      by_cases hs : x.1 = s
      · subst hs; rw [hf] at h1; simp at h1
      · have hs' : ¬ s = x.1 := fun h => hs h.symm
        refine hc s d d' (by rw [OMap.find?_set, if_neg hs']; exact h1) ?_
        simpa [OMap.find?, Ne.symm hs] using h2
    | some d =>
      by_cases hd : d = x.2
      · simp only [hd, ne_eq, not_true_eq_false, if_false, Outcome.ok_bind]
        refine ih hn.2 fun hc => h fun s e e' h1 h2 => ?_
        by_cases hs : x.1 = s
        · subst hs
          rw [hf] at h1
          simp [OMap.find?] at h2
          rw [← h2, ← hd]; exact (Option.some.inj h1).symm
        · exact hc s e e' h1 (by simpa [OMap.find?, Ne.symm hs] using h2)
      · simp only [ne_eq, hd, not_false_eq_true, if_true]
        rfl

theorem unionEdges_ok {es es' : List (Edge σ)} (hs : ∀ e ∈ es', OMap.Sorted e.map)
    (h : List.Forall₂ (fun e e' => Compatible e.map e'.map) es es') :
    unionEdges es es' = .ok (List.zipWith (fun e e' => ⟨e.arrow, unionMap e.map e'.map⟩) es es') := by
  induction h with
  | nil => rfl
  | @cons e e' es es' h _ ih =>
    rw [unionEdges, unionEdge, unionFold_ok (hs e' (by simp)).nodup h, ih fun x hx => hs x (by simp [hx])]
    rfl

theorem unionEdges_error {es es' : List (Edge σ)} (hs : ∀ e ∈ es', OMap.Sorted e.map)
    (hl : es.length = es'.length)
    (h : ¬ List.Forall₂ (fun e e' => Compatible e.map e'.map) es es') :
    (unionEdges es es').isError = true := by
  induction es generalizing es' with
  | nil =>
    cases es' with
    | nil => exact absurd .nil h
    | cons e' es' => simp at hl
  | cons e es ih =>
    cases es' with
    | nil => simp at hl
    | cons e' es' =>
      rw [unionEdges, unionEdge]
      by_cases hc : Compatible e.map e'.map
      · rw [unionFold_ok (hs e' (by simp)).nodup hc]
        refine isError_bind (x := unionEdges es es') _ (ih (fun x hx => hs x (by simp [hx])) (by simpa using hl) fun hr => ?_)
        exact h (.cons hc hr)
      · exact isError_bind _ (isError_bind _ (unionFold_error (hs e' (by simp)).nodup hc))

end TAT
