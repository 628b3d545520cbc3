import Verif.TensorMisc.Model
import Verif.EdgeOp.Fresh
import Verif.EdgeOp.Plan

/-!
# Lemmas for `tensor_miscellaneous.hpp`
-/

set_option linter.unusedSectionVars false

namespace TAT

variable {ν σ α β : Type}

theorem rowMajor_append {d1 d2 i1 i2 : List ℕ} (h : d1.length = i1.length) :
    rowMajor (d1 ++ d2) (i1 ++ i2) = rowMajor d1 i1 * d2.prod + rowMajor d2 i2 := by
  induction d1 generalizing i1 with
  | nil =>
    cases i1 with
    | nil => simp [rowMajor]
    | cons i i1 => simp at h
  | cons d d1 ih =>
    cases i1 with
    | nil => simp at h
    | cons i i1 =>
      rw [List.cons_append, List.cons_append, rowMajor, ih (by simpa using h), rowMajor,
        List.prod_append]
      ring

variable [LinearOrder ν] [TatSym σ]

/-- Replacing the blocks by blocks of the same keys and sizes. -/
theorem wf_of_blocks {r : Tensor ν σ α} (h : WF r) {m : List (List σ × List β)}
    (hs : OMap.Sorted m) (hk : ∀ k, k ∈ OMap.keys m ↔ k ∈ OMap.keys r.core.blocks)
    (hl : ∀ k d d', OMap.find? m k = some d → OMap.find? r.core.blocks k = some d' →
      d.length = d'.length) : WF (⟨r.names, ⟨r.core.edges, m⟩⟩ : Tensor ν σ β) where
  rank := h.rank
  nodup := h.nodup
  sorted := h.sorted
  pruned := h.pruned
  blocks := by
    rw [← h.blocks]
    change m.map (fun b => (b.1, b.2.length)) = _
    apply OMap.ext
    · unfold OMap.Sorted at *
      rw [List.map_map]; exact hs
    · have := h.blocksSorted
      unfold OMap.Sorted at *
      rw [List.map_map]; exact this
    · intro k
      have e1 := OMap.find?_map_val m (fun _ d => d.length) k
      have e2 := OMap.find?_map_val r.core.blocks (fun _ d => d.length) k
      rw [e1, e2]
      have hk' := hk k
      cases h1 : OMap.find? m k with
      | none =>
        rw [OMap.find?_eq_none, hk', ← OMap.find?_eq_none] at h1
        rw [h1]; rfl
      | some d =>
        have : k ∈ OMap.keys m := OMap.find?_isSome.1 (by rw [h1]; rfl)
        obtain ⟨d', hd'⟩ := Option.isSome_iff_exists.1 (OMap.find?_isSome.2 (hk'.1 this))
        rw [hd']
        simp [hl k d d' h1 hd']

theorem edgeDims_ok {edges : List (Edge σ)} {k : List σ}
    (h : List.Forall₂ (fun e s => s ∈ OMap.keys e.map) edges k) :
    edgeDims edges k = .ok (dimsOf edges k) := by
  induction h with
  | nil => rfl
  | @cons e s es ss h _ ih =>
    obtain ⟨d, hd⟩ := Option.isSome_iff_exists.1 (OMap.find?_isSome.2 h)
    rw [edgeDims, hd]
    simp only [ih]
    change Outcome.ok _ = _
    simp [dimsOf, dimOf, hd]

/-! ## the kernel of `multiple` -/

theorem multipleKernel_spec (mulS : α → β → α) {m k n : ℕ} {src dst : List α} {S : List β}
    (hs : src.length = m * k * n) (hd : dst.length = m * k * n) (hS : S.length = k) :
    ∃ d', multipleKernel mulS m k n src S dst = .ok d' ∧ d'.length = m * k * n ∧
      ∀ i < m * k * n, d'[i]? = src[i]?.bind fun x => (S[i / n % k]?).map (mulS x) := by
  let l : List (ℕ × ℕ × ℕ) := (List.range m).flatMap fun a => (List.range k).flatMap fun b =>
    (List.range n).map fun c => (a, b, c)
  let step : List α → ℕ × ℕ × ℕ → Outcome (List α) := fun dst x =>
    match S[x.2.1]? with
    | none => .ub
    | some v => multipleElem mulS src v dst ((x.1 * k + x.2.1) * n + x.2.2)
  have hmem : ∀ x, x ∈ l ↔ x.1 < m ∧ x.2.1 < k ∧ x.2.2 < n := by
    rintro ⟨a, b, c⟩
    simp [l]
  have hker : multipleKernel mulS m k n src S dst = l.foldlM step dst := by
    unfold multipleKernel
    simp only [l]
    rw [foldlM_flatMap]
    refine foldlM_congr (fun a _ s => ?_) _
    rw [foldlM_flatMap]
    refine foldlM_congr (fun b hb s => ?_) _
    rw [List.foldlM_map]
    have hb' : b < S.length := by rw [hS]; exact List.mem_range.1 hb
    simp only [step, List.getElem?_eq_getElem hb']
  have hpos : ∀ x ∈ l, (x.1 * k + x.2.1) * n + x.2.2 < m * k * n ∧
      ((x.1 * k + x.2.1) * n + x.2.2) / n % k = x.2.1 := by
    intro x hx
    obtain ⟨ha, hb, hc⟩ := (hmem x).1 hx
    constructor
    · have h1 : x.1 * k + x.2.1 < m * k := by
        calc x.1 * k + x.2.1 < x.1 * k + k := by omega
          _ = (x.1 + 1) * k := by ring
          _ ≤ m * k := Nat.mul_le_mul_right _ ha
      calc (x.1 * k + x.2.1) * n + x.2.2 < (x.1 * k + x.2.1) * n + n := by omega
        _ = (x.1 * k + x.2.1 + 1) * n := by ring
        _ ≤ m * k * n := Nat.mul_le_mul_right _ h1
    · rw [Nat.mul_comm _ n, Nat.mul_add_div (by omega), Nat.div_eq_of_lt hc, Nat.add_zero,
        Nat.mul_comm _ k, Nat.mul_add_mod, Nat.mod_eq_of_lt hb]
  obtain ⟨d', h1, h2, h3, h4⟩ := foldlM_writes (N := m * k * n) (step := step) (l := l)
    (fun x => (x.1 * k + x.2.1) * n + x.2.2)
    (fun i => src[i]?.bind fun x => (S[i / n % k]?).map (mulS x)) (fun x hx => by
      obtain ⟨hp, hq⟩ := hpos x hx
      obtain ⟨ha, hb, hc⟩ := (hmem x).1 hx
      have hp' : (x.1 * k + x.2.1) * n + x.2.2 < src.length := by rw [hs]; exact hp
      have hb' : x.2.1 < S.length := by rw [hS]; exact hb
      refine ⟨hp, mulS src[(x.1 * k + x.2.1) * n + x.2.2] S[x.2.1], ?_, fun d hd => ?_⟩
      · simp only [hq, List.getElem?_eq_getElem hp', List.getElem?_eq_getElem hb']
        rfl
      · simp only [step, List.getElem?_eq_getElem hb', multipleElem, List.getElem?_eq_getElem hp',
          writeAt]
        rw [if_pos (by rw [hd]; exact hp)]) hd
  refine ⟨d', hker.trans h1, h2, fun i hi => ?_⟩
  have hn : 0 < n := Nat.pos_of_ne_zero fun h => by subst h; simp at hi
  have hk : 0 < k := Nat.pos_of_ne_zero fun h => by subst h; simp at hi
  have hx : (i / n / k, i / n % k, i % n) ∈ l := by
    rw [hmem]
    refine ⟨?_, Nat.mod_lt _ hk, Nat.mod_lt _ hn⟩
    rw [Nat.div_lt_iff_lt_mul hk, Nat.div_lt_iff_lt_mul hn]
    exact hi
  have he : (i / n / k * k + i / n % k) * n + i % n = i := by
    rw [Nat.div_add_mod', Nat.div_add_mod']
  have := h3 _ hx
  simp only [he] at this
  exact this

end TAT
