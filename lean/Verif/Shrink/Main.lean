import Verif.Shrink.Unit
import Verif.Contract.FermiProps

/-!
# Contraction with the helper tensor
-/

set_option linter.unusedSectionVars false

namespace TAT

variable {ν σ α : Type} [LinearOrder ν] [TatSym σ]

/-- Position in the tensor: slot edges have the position opposite to the slot, the others are as in
`p`. -/
def slicePos (l : List (Slot ν σ)) (names : List ν) (p : ν → σ × ℕ) (n : ν) : σ × ℕ :=
  match l.find? fun s => decide (s.name = n) with
  | some s => if n ∈ names then (-s.sym, s.index) else p n
  | none => p n

theorem slicePos_mem {l : List (Slot ν σ)} (hn : (l.map Slot.name).Nodup) {names : List ν}
    (p : ν → σ × ℕ) {s : Slot ν σ} (hs : s ∈ l) (hC : s.name ∈ names) :
    slicePos l names p s.name = (-s.sym, s.index) := by
  unfold slicePos
  cases hf : l.find? fun y => decide (y.name = s.name) with
  | none =>
    rw [List.find?_eq_none] at hf
    simpa using hf s hs
  | some y =>
    have : y = s := List.inj_on_of_nodup_map hn (List.mem_of_find?_eq_some hf) hs
      (by simpa using List.find?_some hf)
    rw [this]
    exact if_pos hC

theorem slicePos_not {l : List (Slot ν σ)} {names : List ν} (p : ν → σ × ℕ) {n : ν}
    (hC : n ∉ l.map Slot.name ∨ n ∉ names) : slicePos l names p n = p n := by
  unfold slicePos
  cases hf : l.find? fun y => decide (y.name = n) with
  | none => rfl
  | some y =>
    rcases hC with h | h
    · refine absurd (List.mem_map.2 ⟨y, List.mem_of_find?_eq_some hf, ?_⟩) h
      simpa using List.find?_some hf
    · exact if_neg h

/-- The fermionic sign of taking a slice: `U` are the edges of the helper tensor, `S` the contracted
ones. -/
def sliceSign (t : Tensor ν σ α) (U S : List ν) (q : ν → σ × ℕ) : ℤ :=
  if TatSym.isFermi σ then
    exchangeOf (oddAt q) U (others U S ++ S.reverse) *
    exchangeOf (oddAt q) t.names (S ++ others t.names S) *
    (S.map fun n => if (edgeOf t n).arrow = true ∧ oddAt q n = true then -1 else 1).prod
  else 1

theorem slice_sign [CommRing α] {l : List (Slot ν σ)} {u t : Tensor ν σ α} (h : UnitView l u)
    (ht : WF t) (hm : ∀ s ∈ l, s.name ∈ t.names →
      TatSym.isFermi σ = true → (edgeOf t s.name).arrow ≠ s.arrow)
    (p : ν → σ × ℕ) {S : List ν} (hS : S = t.names.filter fun n => decide (n ∈ l.map Slot.name)) :
    partner (S.map fun n => (n, n)) p (atSlot l S p) = slicePos l t.names p ∧
    contractSign u t (S.map fun n => (n, n)) (atSlot l S p) (slicePos l t.names p) =
      sliceSign t (l.map Slot.name) S (slicePos l t.names p) := by
  have hn : (l.map Slot.name).Nodup := h.names ▸ h.wf.nodup
  have c1 : (S.map fun n => (n, n)).map Prod.fst = S := by
    rw [List.map_map]; exact List.map_id _
  have c2 : (S.map fun n => (n, n)).map Prod.snd = S := by
    rw [List.map_map]; exact List.map_id _
  have mS : ∀ n, n ∈ S ↔ n ∈ t.names ∧ n ∈ l.map Slot.name := by
    intro n; rw [hS, List.mem_filter, decide_eq_true_iff]
  have nS : S.Nodup := hS ▸ ht.nodup.filter _
  constructor
  · funext n
    by_cases hnS : n ∈ S
    · have := partner_common (cs := S.map fun n => (n, n)) (by rw [c2]; exact nS) p (atSlot l S p)
        (c := (n, n)) (List.mem_map.2 ⟨n, hnS, rfl⟩)
      rw [this]
      obtain ⟨s, hs, rfl⟩ := List.mem_map.1 ((mS n).1 hnS).2
      rw [atSlot_mem hn p hs hnS, slicePos_mem hn p hs ((mS _).1 hnS).1]
    · rw [partner_free p _ (by rw [c2]; exact hnS), slicePos_not p]
      rw [mS] at hnS
      tauto
  · unfold contractSign sliceSign
    rw [c1, c2]
    split
    · rename_i hf
      have ho : ∀ n, oddAt (atSlot l S p) n = oddAt (slicePos l t.names p) n := by
        intro n
        unfold oddAt
        by_cases hnS : n ∈ S
        · obtain ⟨s, hs, rfl⟩ := List.mem_map.1 ((mS n).1 hnS).2
          rw [atSlot_mem hn p hs hnS, slicePos_mem hn p hs ((mS _).1 hnS).1, odd_neg]
        · rw [atSlot_not p hnS, slicePos_not p]
          rw [mS] at hnS
          tauto
      rw [exchangeOf_congr (fun n _ => ho n), h.names]
      congr 1
      rw [List.map_map]
      congr 1
      refine List.map_congr_left fun n hnS => ?_
      obtain ⟨s, hs, rfl⟩ := List.mem_map.1 ((mS n).1 hnS).2
      simp only [Function.comp]
      rw [h.map hs, ho]
      have := hm s hs ((mS _).1 hnS).1 hf
      unfold Slot.edge
      rw [hf]
      cases h1 : s.arrow <;> cases h2 : (edgeOf t s.name).arrow <;> simp_all
    · rfl

theorem unit_contract [CommRing α] (ce : ContractEnv σ α) (hg : GemmOk ce.gemm)
    {cn : ContractNames ν} (hcn : [cn.c0, cn.c1, cn.c2].Nodup) {l : List (Slot ν σ)}
    {u t : Tensor ν σ α} (h : UnitView l u) (ht : WF t) (hb : t.core.blocks ≠ [])
    (hi : ∀ s ∈ l, s.index < s.dim) (h0 : (l.map Slot.sym).sum = 0)
    (hm : ∀ s ∈ l, s.name ∈ t.names → OMap.find? (mapOf t s.name) (-s.sym) = some s.dim ∧
      (TatSym.isFermi σ = true → (edgeOf t s.name).arrow ≠ s.arrow))
    (hr : (∀ s ∈ l, s.name ∈ t.names → OMap.keys (mapOf t s.name) = [-s.sym]) ∨
      (TatSym.isFermi σ = true ∧ ∃ n ∈ t.names, (edgeOf t n).arrow = true))
    {S : List ν} (hS : S = t.names.filter fun n => decide (n ∈ l.map Slot.name)) :
    ∃ r, contractAllEdge ce cn u t = .ok r ∧
      r.names = others (l.map Slot.name) t.names ++ others t.names (l.map Slot.name) ∧ WF r ∧
      (∃ e : ν → Edge σ, r.core.edges = prunedEdges (r.names.map e) ∧
        ∀ n ∈ r.names, (e n).map = (if n ∈ t.names then edgeOf t n else edgeOf u n).map ∧
          (TatSym.isFermi σ = true →
            arrowValid (if n ∈ t.names then edgeOf t n else edgeOf u n) = true →
            (e n).arrow = (if n ∈ t.names then edgeOf t n else edgeOf u n).arrow)) ∧
      ∀ p, FineOk (fun n => (if n ∈ t.names then edgeOf t n else edgeOf u n).map) r.names p →
        elem r p = some (if AtSlots (l.filter fun s => decide (s.name ∉ t.names)) p then
          sliceSign t (l.map Slot.name) S (slicePos l t.names p) • amp t (slicePos l t.names p)
          else 0) := by
  have hn : (l.map Slot.name).Nodup := h.names ▸ h.wf.nodup
  set C := (OMap.keys (OMap.ofList (u.names.map fun n => (n, ())))).filter
    fun n => decide (n ∈ t.names) with hCdef
  have mS : ∀ n, n ∈ S ↔ n ∈ t.names ∧ n ∈ l.map Slot.name := by
    intro n; rw [hS, List.mem_filter, decide_eq_true_iff]
  have nS : S.Nodup := hS ▸ ht.nodup.filter _
  have mC : ∀ n, n ∈ C ↔ n ∈ t.names ∧ n ∈ l.map Slot.name := by
    intro n
    rw [hCdef, List.mem_filter, keys_unitMap, decide_eq_true_iff, h.names, and_comm]
  have nC : C.Nodup := (sorted_unitMap _).nodup.filter _
  have hperm : C.Perm S := (List.perm_ext_iff_of_nodup nC nS).2 fun n => by rw [mC, mS]
  have c1 : (C.map fun n => (n, n)).map Prod.fst = C := by
    rw [List.map_map]; exact List.map_id _
  have c2 : (C.map fun n => (n, n)).map Prod.snd = C := by
    rw [List.map_map]; exact List.map_id _
  have hk : knownPairs u t ((OMap.keys (OMap.ofList (u.names.map fun n => (n, ())))).map
      fun n => (n, n)) = C.map fun n => (n, n) := by
    unfold knownPairs
    rw [List.filter_map, hCdef]
    congr 1
    refine List.filter_congr fun n hn => ?_
    rw [keys_unitMap] at hn
    simp [hn]
  have o1 : others u.names C = others (l.map Slot.name) t.names := by
    unfold others
    rw [h.names]
    refine List.filter_congr fun n hn => ?_
    rw [decide_eq_decide, mC]
    tauto
  have o2 : others t.names C = others t.names (l.map Slot.name) := by
    unfold others
    refine List.filter_congr fun n hn => ?_
    rw [decide_eq_decide, mC]
    tauto
  have hP : Pairs u.names t.names (C.map fun n => (n, n)) := by
    refine ⟨by rw [c1]; exact nC, by rw [c2]; exact nC, fun c hc => ?_, fun c hc => ?_⟩ <;>
    · obtain ⟨n, hn, rfl⟩ := List.mem_map.1 hc
      rw [mC] at hn
      first | exact hn.1 | (rw [h.names]; exact hn.2)
  have hA : TatSym.isFermi σ = true → ∀ c ∈ C.map fun n => (n, n),
      (edgeOf u c.1).arrow ≠ (edgeOf t c.2).arrow := by
    intro hf c hc
    obtain ⟨n, hn', rfl⟩ := List.mem_map.1 hc
    obtain ⟨hn1, hn2⟩ := (mC n).1 hn'
    obtain ⟨s, hs, rfl⟩ := List.mem_map.1 hn2
    have := (hm s hs hn1).2 hf
    rw [h.map hs]
    unfold Slot.edge
    rw [hf, Bool.true_and]
    exact this.symm
  have hfind : ∀ c ∈ C.map fun n => (n, n), ∃ x ∈ l, x.name ∈ t.names ∧ c = (x.name, x.name) ∧
      mapOf u x.name = [(x.sym, x.dim)] := by
    intro c hc
    obtain ⟨n, hn', rfl⟩ := List.mem_map.1 hc
    obtain ⟨hn1, hn2⟩ := (mC n).1 hn'
    obtain ⟨x, hs, rfl⟩ := List.mem_map.1 hn2
    refine ⟨x, hs, hn1, rfl, ?_⟩
    unfold mapOf
    rw [h.map hs]
    rfl
  have hfree : (others u.names ((C.map fun n => (n, n)).map Prod.fst) ++
      others t.names ((C.map fun n => (n, n)).map Prod.snd)).Nodup := by
    rw [c1, c2, o1, o2, List.nodup_append]
    refine ⟨hn.filter _, ht.nodup.filter _, ?_⟩
    rintro x hx y hy rfl
    exact (mem_others.1 hx).2 (mem_others.1 hy).1
  have hres : ∃ r, contractAllEdge ce cn u t = .ok r ∧
      r.names = others u.names ((C.map fun n => (n, n)).map Prod.fst) ++
        others t.names ((C.map fun n => (n, n)).map Prod.snd) ∧ WF r ∧
      (∃ e : ν → Edge σ, r.core.edges = prunedEdges (r.names.map e) ∧
        ∀ n ∈ r.names, (e n).map = (outerEdge u t (C.map fun n => (n, n)) n).map ∧
          (TatSym.isFermi σ = true → arrowValid (outerEdge u t (C.map fun n => (n, n)) n) = true →
            (e n).arrow = (outerEdge u t (C.map fun n => (n, n)) n).arrow)) ∧
      ∀ p, FineOk (fun n => (outerEdge u t (C.map fun n => (n, n)) n).map) r.names p →
        elem r p = some (contracted u t (C.map fun n => (n, n)) p) := by
    rcases hr with hr | ⟨hf, hr⟩
    · refine contract_unified ce hg hcn h.wf ht h.blocks hb hk
        (by rw [c1]; exact nC) (by rw [c2]; exact nC) ⟨hA, fun c hc s => ?_⟩
        (Or.inl (Separated.single fun n hn => by
          rw [c1, mC] at hn
          obtain ⟨s, hs, rfl⟩ := List.mem_map.1 hn.2
          exact ⟨s.sym, by unfold mapOf; rw [h.map hs]; rfl⟩)) hfree
      obtain ⟨x, hx, hxt, rfl, hmu⟩ := hfind c hc
      dsimp only
      rw [hmu]
      simp only [OMap.find?]
      by_cases hsx : s = x.sym
      · rw [if_pos hsx, hsx, (hm x hx hxt).1]
      · rw [if_neg hsx, OMap.find?_eq_none.2]
        rw [hr x hx hxt, List.mem_singleton, neg_inj]
        exact hsx
    · have hns : TatSym.isNoSym σ = false := by
        by_contra hc
        rw [Bool.not_eq_false] at hc
        rw [TatSym.noSym_bose hc] at hf
        cases hf
      have hcn' : cn.c1 ≠ cn.c2 := by
        simp only [List.nodup_cons, List.mem_cons, List.not_mem_nil, or_false] at hcn
        exact hcn.2.1
      obtain ⟨r, e1, e2, e3, ⟨e, e4, e5⟩, e6⟩ := C28_fermi_sectors_partial ce hg hcn' hns hf h.wf ht hk
        (by rw [c1]; exact nC) (by rw [c2]; exact nC) (hA hf)
        (fun c hc s d1 d2 g1 g2 => by
          obtain ⟨x, hx, hxt, rfl, hmu⟩ := hfind c hc
          dsimp only at g1 g2
          rw [hmu] at g1
          simp only [OMap.find?] at g1
          by_cases hsx : s = x.sym
          · rw [if_pos hsx, Option.some.injEq] at g1
            rw [hsx, (hm x hx hxt).1, Option.some.injEq] at g2
            exact g1.symm.trans g2
          · rw [if_neg hsx] at g1; cases g1)
        (Or.inl fun c hc s hs => by
          obtain ⟨x, hx, hxt, rfl, hmu⟩ := hfind c hc
          dsimp only at hs ⊢
          rw [hmu] at hs
          obtain rfl : s = x.sym := by simpa [OMap.keys] using hs
          rw [← OMap.find?_isSome, (hm x hx hxt).1]
          rfl)
        (Or.inr hr)
        (Or.inl fun p q hp hq _ c hc => by
          obtain ⟨x, hx, hxt, rfl, hmu⟩ := hfind c hc
          have a := (hp _ hc).1
          have b := (hq _ hc).1
          dsimp only at a b ⊢
          rw [hmu] at a b
          simp only [OMap.keys, List.map_cons, List.map_nil, List.mem_singleton] at a b
          rw [a, b]) hfree
        (fun _ p hp1 _ _ => by
          obtain ⟨q, hq⟩ := exists_key_of_blocks h.wf.shaped h.blocks
          have hq' : ∀ x ∈ l, (q x.name).1 = x.sym := by
            intro x hx
            have := hq.1 x.name (by rw [h.names]; exact List.mem_map_of_mem hx)
            unfold mapOf at this
            rw [h.map hx] at this
            simpa [OMap.keys, Slot.edge] using this
          refine ⟨q, (mem_keys_named' h.wf.shaped q).2 hq, fun c hc => ?_, fun n hn' => ?_⟩
          · obtain ⟨x, hx, hxt, rfl, hmu⟩ := hfind c hc
            dsimp only
            rw [hq' x hx, ← OMap.find?_isSome, (hm x hx hxt).1]
            rfl
          · have := hp1 n hn'
            obtain ⟨a, _⟩ := mem_others.1 hn'
            rw [h.names] at a
            obtain ⟨x, hx, rfl⟩ := List.mem_map.1 a
            unfold mapOf at this
            rw [h.map hx] at this
            rw [hq' x hx]
            simp only [OMap.keys, Slot.edge, List.map_cons, List.map_nil, List.mem_singleton] at this
            exact this.symm)
      exact ⟨r, e1, e2, e3, ⟨e, e4, fun n hn => ⟨(e5 n hn).1, fun _ => (e5 n hn).2⟩⟩, e6⟩
  have oe : ∀ n, n ∈ others (l.map Slot.name) t.names ++ others t.names (l.map Slot.name) →
      outerEdge u t (C.map fun n => (n, n)) n =
        if n ∈ t.names then edgeOf t n else edgeOf u n := by
    intro n hn
    unfold outerEdge
    rw [c1, o1]
    rcases List.mem_append.1 hn with hn | hn
    · rw [if_pos hn, if_neg (mem_others.1 hn).2]
    · rw [if_neg, if_pos (mem_others.1 hn).1]
      intro hc
      exact (mem_others.1 hc).2 (mem_others.1 hn).1
  obtain ⟨r, e1, e2, e3, ⟨e, e4, e5⟩, e6⟩ := hres
  rw [c1, c2, o1, o2] at e2
  refine ⟨r, e1, e2, e3, ⟨e, e4, fun n hn => ?_⟩, fun p hp => ?_⟩
  · rw [← oe n (e2 ▸ hn)]
    exact e5 n hn
  · rw [e6 p ⟨fun n hn => ?_, hp.2⟩]
    · congr 1
      rw [contracted_perm h.wf.shaped ht.shaped hP (hperm.map _), contracted_unit h ht hi nS
        (fun n hn => ((mS n).1 hn).2) h0]
      obtain ⟨s1, s2⟩ := slice_sign h ht (fun s hs hs' => (hm s hs hs').2) p hS
      rw [s1, s2]
      have : (l.filter fun s => decide (s.name ∉ S)) = l.filter fun s => decide (s.name ∉ t.names) := by
        refine List.filter_congr fun s hs => ?_
        rw [decide_eq_decide, mS]
        have : s.name ∈ l.map Slot.name := List.mem_map_of_mem hs
        tauto
      rw [this]
    · have := hp.1 n hn
      dsimp only at this
      rw [← oe n (e2 ▸ hn)] at this
      exact this

end TAT
