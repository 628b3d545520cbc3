import Verif.Trace.Laws2
import Verif.Contract.LawCases

/-!
# C74: the laws of the trace

Laws between several calls of `trace` and `contract`: tracing a contraction, tracing a trace, tracing
a transposed tensor, and products in cyclic order.
-/

set_option linter.unusedSectionVars false

namespace TAT

variable {ν σ α : Type} [LinearOrder ν] [TatSym σ]

section
variable [CommRing α] {env1 env2 : Env σ α} {junk : List σ → ℕ → α} {tn : TraceNames ν}

/-- **C74**: tracing a contraction over pairs of edges, one of each tensor, is contracting these edges
as well. -/
theorem C74_trace_of_contraction {ce : ContractEnv σ α} (hg : GemmOk ce.gemm)
    {cn : ContractNames ν} (hcn : cn.c1 ≠ cn.c2) (hns : TatSym.isNoSym σ = false)
    (htn : [tn.t1, tn.t2, tn.t3].Nodup) {t1 t2 r u v : Tensor ν σ α} (h1 : WF t1) (h2 : WF t2)
    {cs ps : List (ν × ν)} (hc : ∀ c ∈ cs ++ ps, c.1 ∈ t1.names ∧ c.2 ∈ t2.names)
    (hr : contract ce cn t1 t2 cs = .ok r) (hu : traceTensor env1 env2 junk tn r ps = .ok u)
    (hv : contract ce cn t1 t2 (cs ++ ps) = .ok v) (sr : Sound t1 t2 cs)
    (sv : Sound t1 t2 (cs ++ ps)) (su : Traceable r ps) :
    u.names = v.names ∧ ∀ p, amp u p = amp v p := by
  have kr := knownPairs_self fun c h => hc c (List.mem_append_left _ h)
  have kv := knownPairs_self hc
  have c := ok_isContraction hg hcn hns h1 h2 kr sr hr
  have d := ok_isContraction hg hcn hns h1 h2 kv sv hv
  have hp := ok_pairs hv
  rw [kv] at hp
  have e := ok_isTrace htn c.wf su hu
  refine ⟨?_, fun p => ?_⟩
  · rw [e.names, d.names, c.names]
    exact (others_traced hp (c.names ▸ c.wf.nodup)).2.2.2
  · rw [e.amps, d.amps, traced_contracted h1.shaped h2.shaped hp c]

/-- **C74**: tracing a trace is tracing all the pairs at once. -/
theorem C74_trace_of_trace (htn : [tn.t1, tn.t2, tn.t3].Nodup) {t r u v : Tensor ν σ α} (h : WF t)
    {ps qs : List (ν × ν)} (hr : traceTensor env1 env2 junk tn t ps = .ok r)
    (hu : traceTensor env1 env2 junk tn r qs = .ok u)
    (hv : traceTensor env1 env2 junk tn t (ps ++ qs) = .ok v) (sr : Traceable t ps)
    (su : Traceable r qs) (sv : Traceable t (ps ++ qs)) :
    u.names = v.names ∧ ∀ p, amp u p = amp v p := by
  have c := ok_isTrace htn h sr hr
  have d := ok_isTrace htn c.wf su hu
  have e := ok_isTrace htn h sv hv
  refine ⟨?_, fun p => ?_⟩
  · rw [e.names, d.names, c.names, others_others, pairNames_append]
  · rw [d.amps, e.amps, traced_traced h.shaped sv.nodup sv.names c]

/-- Traces over one pair after the other, each of matching edges. -/
inductive TraceChain (env1 env2 : Env σ α) (junk : List σ → ℕ → α) (tn : TraceNames ν) :
    Tensor ν σ α → List (ν × ν) → Tensor ν σ α → Prop where
  | nil (t : Tensor ν σ α) : TraceChain env1 env2 junk tn t [] t
  | cons {t u r : Tensor ν σ α} {c : ν × ν} {ps : List (ν × ν)} (hm : Matched t t [c])
      (hu : traceTensor env1 env2 junk tn t [c] = .ok u) (h : TraceChain env1 env2 junk tn u ps r) :
      TraceChain env1 env2 junk tn t (c :: ps) r

theorem traced_nil {t : Tensor ν σ α} (p : ν → σ × ℕ) : traced t [] p = amp t p := by
  show (if Diagonal [] p then traceSign t [] p • amp t p else 0) = amp t p
  rw [if_pos (by intro c hc; cases hc)]
  unfold traceSign
  have : others t.names (pairNames []) = t.names := by simp [others, pairNames]
  simp only [List.map_nil, List.reverse_nil, List.nil_append, this, exchangeOf_refl, ite_self, one_smul]

theorem traceChain_spec (htn : [tn.t1, tn.t2, tn.t3].Nodup) {t r : Tensor ν σ α} (h : WF t)
    {ps : List (ν × ν)} (hn : (pairNames ps).Nodup) (hs : ∀ n ∈ pairNames ps, n ∈ t.names)
    (hc : TraceChain env1 env2 junk tn t ps r) : IsTrace t ps r := by
  induction hc with
  | nil t =>
    exact ⟨by simp [others, pairNames], h, fun _ _ _ hx => hx, fun _ _ _ _ => rfl,
      fun p => (traced_nil p).symm⟩
  | @cons t u r c ps hm hu hch ih =>
    have hn' := hn
    have hs' := hs
    rw [show c :: ps = [c] ++ ps from rfl, pairNames_append] at hn' hs'
    have d := (List.nodup_append.1 hn').2.2
    have s1 : Traceable t [c] := ⟨(List.nodup_append.1 hn').1,
      fun n hn => hs' n (List.mem_append_left _ hn), hm, Or.inl fun p q _ _ hs n hn => by
        obtain rfl : n = c.1 := by simpa using hn
        simpa using hs⟩
    have e := ok_isTrace htn h s1 hu
    have su : ∀ n ∈ pairNames ps, n ∈ u.names := fun n hn => by
      rw [e.names]
      exact mem_others.2 ⟨hs' n (List.mem_append_right _ hn), fun h' => d n h' n hn rfl⟩
    have k := ih e.wf (List.nodup_append.1 hn').2.1 su
    refine ⟨?_, k.wf, fun n hn x hx => ?_, fun hf n hn hv => ?_, fun p => ?_⟩
    · rw [k.names, e.names, others_others, ← pairNames_append]; rfl
    · refine e.sub n ?_ x (k.sub n hn x hx)
      rw [k.names] at hn
      exact (mem_others.1 hn).1
    · have hn' : n ∈ u.names := by
        rw [k.names] at hn
        exact (mem_others.1 hn).1
      rw [k.arrows hf n hn hv]
      refine e.arrows hf n hn' ?_
      unfold arrowValid at hv ⊢
      rw [List.any_eq_true] at hv ⊢
      obtain ⟨x, hx, hx'⟩ := hv
      exact ⟨x, k.sub n hn x hx, hx'⟩
    · rw [k.amps]
      exact traced_traced h.shaped (ps := [c]) hn hs e p

/-- **C74**: traces over one pair after the other compute the sum over the diagonals of all pairs, for
any number of pairs and all symmetries (the trace over several pairs at once does not, see
`C30_two_pairs_wrong`). -/
theorem C74_one_by_one (htn : [tn.t1, tn.t2, tn.t3].Nodup) {t r : Tensor ν σ α} (h : WF t)
    {ps : List (ν × ν)} (hn : (pairNames ps).Nodup) (hs : ∀ n ∈ pairNames ps, n ∈ t.names)
    (hc : TraceChain env1 env2 junk tn t ps r) :
    r.names = others t.names (pairNames ps) ∧ ∀ p, amp r p = traced t ps p :=
  ⟨(traceChain_spec htn h hn hs hc).names, (traceChain_spec htn h hn hs hc).amps⟩

/-- **C74**: contracting one edge and tracing the others one after the other computes the contraction
of all of them, for any number of edges and all symmetries (the contraction of several edges at once
does not, see `C28_two_edges_wrong`). -/
theorem C74_contract_one_by_one {ce : ContractEnv σ α} (hg : GemmOk ce.gemm)
    {cn : ContractNames ν} (hcn : cn.c1 ≠ cn.c2) (hns : TatSym.isNoSym σ = false)
    (htn : [tn.t1, tn.t2, tn.t3].Nodup) {t1 t2 r u : Tensor ν σ α} (h1 : WF t1) (h2 : WF t2)
    (b1 : t1.core.blocks ≠ []) (b2 : t2.core.blocks ≠ [])
    {c : ν × ν} {ps : List (ν × ν)} (hp : Pairs t1.names t2.names (c :: ps))
    (hr : contract ce cn t1 t2 [c] = .ok r) (hu : TraceChain env1 env2 junk tn r ps u) :
    u.names = others t1.names ((c :: ps).map Prod.fst) ++ others t2.names ((c :: ps).map Prod.snd) ∧
    ∀ p, amp u p = contracted t1 t2 (c :: ps) p := by
  have hc1 := hp.sub1 c (by simp)
  have hc2 := hp.sub2 c (by simp)
  have d := ok_isContraction hg hcn hns h1 h2 (knownPairs_self (by simpa using ⟨hc1, hc2⟩))
    (sound_single h1 h2 hc1 hc2 b1 b2) hr
  have nd := d.names ▸ d.wf.nodup
  have hp' : Pairs t1.names t2.names ([c] ++ ps) := hp
  obtain ⟨hP1, hP2, hpn, hoth⟩ := others_traced hp' nd
  have e := traceChain_spec htn d.wf hpn (fun n hn => by
    rw [d.names]
    rcases List.mem_append.1 ((pairNames_split ps).mem_iff.1 hn) with h | h
    · exact List.mem_append_left _ (hP1 n h)
    · exact List.mem_append_right _ (hP2 n h)) hu
  refine ⟨?_, fun p => ?_⟩
  · rw [e.names, d.names]
    exact hoth
  · rw [e.amps]
    exact traced_contracted h1.shaped h2.shaped hp' d p

/-- **C74**: tracing a transposed tensor transposes the trace. -/
theorem C74_transpose (env : Env σ α) (htn : [tn.t1, tn.t2, tn.t3].Nodup)
    {t u r r' : Tensor ν σ α} (h : WF t) {target : List ν} (hp : t.names.Perm target)
    (hu : transpose env t target = .ok u) {ps : List (ν × ν)}
    (hr : traceTensor env1 env2 junk tn t ps = .ok r)
    (hr' : traceTensor env1 env2 junk tn u ps = .ok r') (s : Traceable t ps) (s' : Traceable u ps) :
    r'.names = others target (pairNames ps) ∧
    ∀ p, amp r' p = transposeSign r.names r'.names p • amp r p := by
  obtain ⟨_, a1, a2, a3, a4, a5, a6⟩ := C16_transpose env h hp
  rw [hu, Outcome.ok.injEq] at a1
  subst a1
  subst a2
  have c := ok_isTrace htn h s hr
  have d := ok_isTrace htn a3 s' hr'
  refine ⟨d.names, fun p => ?_⟩
  rw [d.amps, c.amps, c.names, d.names]
  exact traced_transpose h.shaped s.nodup s.names hp (fun n hn => a4 n (hp.mem_iff.1 hn))
    (amp_of_elem h.shaped a3.shaped a5 (fun q => isSign_transposeSign _ _ q) a6) p

/-- **C74**: the trace of a product does not depend on the order of the factors, up to the
transposition of the edges that are left.  With `cs` contracted and `ds` traced in one order, `ds` is
contracted and `cs` is traced in the other. -/
theorem C74_cyclic {ce : ContractEnv σ α} (hg : GemmOk ce.gemm)
    {cn : ContractNames ν} (hcn : cn.c1 ≠ cn.c2) (hns : TatSym.isNoSym σ = false)
    (htn : [tn.t1, tn.t2, tn.t3].Nodup) {t1 t2 r r' u u' : Tensor ν σ α} (h1 : WF t1) (h2 : WF t2)
    {cs ds : List (ν × ν)} (hp : Pairs t1.names t2.names (cs ++ ds))
    (hr : contract ce cn t1 t2 cs = .ok r) (hu : traceTensor env1 env2 junk tn r ds = .ok u)
    (hr' : contract ce cn t2 t1 (ds.map Prod.swap) = .ok r')
    (hu' : traceTensor env1 env2 junk tn r' (cs.map Prod.swap) = .ok u')
    (sr : Sound t1 t2 cs) (su : Traceable r ds) (sr' : Sound t2 t1 (ds.map Prod.swap))
    (su' : Traceable r' (cs.map Prod.swap)) :
    (∃ A B, u.names = A ++ B ∧ u'.names = B ++ A) ∧
    ∀ p, amp u' p = transposeSign u.names u'.names p • amp u p := by
  have hp2 : Pairs t2.names t1.names (ds.map Prod.swap ++ cs.map Prod.swap) := by
    rw [← List.map_append]
    exact hp.swap.perm (List.perm_append_comm.map _)
  have kr : knownPairs t1 t2 cs = cs := knownPairs_self fun c h =>
    ⟨hp.sub1 c (List.mem_append_left _ h), hp.sub2 c (List.mem_append_left _ h)⟩
  have kr' : knownPairs t2 t1 (ds.map Prod.swap) = ds.map Prod.swap := knownPairs_self fun c h =>
    ⟨hp2.sub1 c (List.mem_append_left _ h), hp2.sub2 c (List.mem_append_left _ h)⟩
  have c := ok_isContraction hg hcn hns h1 h2 kr sr hr
  have c' := ok_isContraction hg hcn hns h2 h1 kr' sr' hr'
  have d := ok_isTrace htn c.wf su hu
  have d' := ok_isTrace htn c'.wf su' hu'
  have n1 : u.names = others t1.names ((cs ++ ds).map Prod.fst) ++
      others t2.names ((cs ++ ds).map Prod.snd) := by
    rw [d.names, c.names]
    exact (others_traced hp (c.names ▸ c.wf.nodup)).2.2.2
  have mem : ∀ (N A B : List ν), (∀ n, n ∈ A ↔ n ∈ B) → others N A = others N B := by
    intro N A B h
    unfold others
    exact List.filter_congr fun n _ => decide_eq_decide.2 (not_congr (h n))
  have n2 : u'.names = others t2.names ((cs ++ ds).map Prod.snd) ++
      others t1.names ((cs ++ ds).map Prod.fst) := by
    rw [d'.names, c'.names, (others_traced hp2 (c'.names ▸ c'.wf.nodup)).2.2.2]
    congr 1
    · refine mem _ _ _ fun n => ?_
      rw [← List.map_append, map_swap_fst, List.map_append, List.map_append, List.mem_append,
        List.mem_append, or_comm]
    · refine mem _ _ _ fun n => ?_
      rw [← List.map_append, map_swap_snd, List.map_append, List.map_append, List.mem_append,
        List.mem_append, or_comm]
  refine ⟨⟨_, _, n1, n2⟩, fun p => ?_⟩
  have arrows : TatSym.isFermi σ = true → ∀ x ∈ cs ++ ds,
      (edgeOf t1 x.1).arrow ≠ (edgeOf t2 x.2).arrow := by
    intro hf x hx
    rcases List.mem_append.1 hx with hx | hx
    · exact ok_arrows hns h1 h2 hr hf (by rw [kr]; exact hx)
    · exact (ok_arrows hns h2 h1 hr' hf (c := x.swap)
        (by rw [kr']; exact List.mem_map_of_mem hx)).symm
  rw [d'.amps, d.amps, traced_contracted h1.shaped h2.shaped hp c,
    traced_contracted h2.shaped h1.shaped hp2 c',
    contracted_perm h2.shaped h1.shaped hp2 (cs' := (cs ++ ds).map Prod.swap)
      (by rw [List.map_append]; exact List.perm_append_comm),
    contracted_swap h1.shaped h2.shaped hp (n1 ▸ d.wf.nodup) arrows]
  unfold transposeSign
  rw [n1, n2]

end

end TAT
