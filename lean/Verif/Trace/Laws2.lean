import Verif.Trace.Laws

/-!
# Helper lemmas for the laws of the trace: traces of contractions and of traces
-/

set_option linter.unusedSectionVars false

namespace TAT

variable {ν σ α β : Type} [LinearOrder ν] [TatSym σ]

/-- Where a sum over positions of edges has an odd position the arrow of the edge counts. -/
theorem arrowValid_of_odd {t : Tensor ν σ α} {n : ν} {w : ν → σ × ℕ}
    (hm : w n ∈ edgePositions (mapOf t n)) (ho : oddAt w n = true) :
    arrowValid (edgeOf t n) = true := by
  unfold edgePositions at hm
  obtain ⟨e, he, hx⟩ := List.mem_flatMap.1 hm
  unfold arrowValid
  rw [List.any_eq_true]
  refine ⟨e, he, ?_⟩
  obtain ⟨i, -, hi⟩ := List.mem_map.1 hx
  unfold oddAt at ho
  rw [← hi] at ho
  dsimp only at ho
  by_contra hz
  have : TatSym.fermi e.1 = 0 := by simpa using hz
  rw [this] at ho
  exact absurd ho (by decide)

/-- The trace of a tensor whose edges, arrows and elements are known in another way. -/
theorem traced_known [CommRing α] {r : Tensor ν σ α} (h : WF r) {ps : List (ν × ν)}
    (hn : (pairNames ps).Nodup) (hs : ∀ n ∈ pairNames ps, n ∈ r.names) {fm : ν → List (σ × ℕ)}
    (hfm : ∀ n ∈ ps.map Prod.fst, OMap.Sorted (fm n))
    (hsub : ∀ n ∈ ps.map Prod.fst, ∀ x ∈ mapOf r n, x ∈ fm n) {arrow : ν → Bool}
    (ha : TatSym.isFermi σ = true → ∀ n ∈ ps.map Prod.fst, arrowValid (edgeOf r n) = true →
      (edgeOf r n).arrow = arrow n)
    {F : (ν → σ × ℕ) → α} (hF : ∀ p, amp r p = F p) (p : ν → σ × ℕ) :
    traced r ps p = sumOver (fun n => edgePositions (fm n))
      (fun w => (if TatSym.isFermi σ then exchangeOf (oddAt (partner ps w w)) r.names
        (((ps.map Prod.fst).reverse ++ ps.map Prod.snd) ++ others r.names (pairNames ps)) *
        (ps.map fun c => if arrow c.1 = false ∧ oddAt (partner ps w w) c.1 = true then (-1 : ℤ)
          else 1).prod else 1) • F (partner ps w w)) (ps.map Prod.fst) p := by
  obtain ⟨n1, n2, n3⟩ := pairs_split hn
  have hfst : ∀ n ∈ ps.map Prod.fst, n ∈ r.names := fun n hn' =>
    hs n ((pairNames_split ps).mem_iff.2 (List.mem_append_left _ hn'))
  have hsr : ∀ n ∈ ps.map Prod.fst, OMap.Sorted (mapOf r n) := fun n hn =>
    mapOf_sorted' h.shaped n (hfst n hn)
  rw [traced_partner h.shaped hn hs, sumOver_congr n1 (F' := fun w =>
    (if TatSym.isFermi σ then exchangeOf (oddAt (partner ps w w)) r.names
        (((ps.map Prod.fst).reverse ++ ps.map Prod.snd) ++ others r.names (pairNames ps)) *
        (ps.map fun c => if arrow c.1 = false ∧ oddAt (partner ps w w) c.1 = true then (-1 : ℤ)
          else 1).prod else 1) • F (partner ps w w))]
  · refine (sumOver_restrict n1 (fun n hn => edgePositions_nodup (hfm n hn))
      (fun n hn => edgePositions_nodup (hsr n hn)) (fun n hn x hx => ?_) fun w _ _ hw => ?_).symm
    · unfold edgePositions at hx ⊢
      obtain ⟨e, he, hx⟩ := List.mem_flatMap.1 hx
      exact List.mem_flatMap.2 ⟨e, hsub n hn e he, hx⟩
    · obtain ⟨n, hn, hn'⟩ := hw
      rw [← hF, amp_zero h, smul_zero]
      intro hv
      refine hn' ((mem_edgePositions (hsr n hn)).2 ?_)
      have := ((validPos_iff h).1 hv).1 n (hfst n hn)
      rwa [partner_free w w (n3 n hn)] at this
  · intro w hw _
    rw [hF, traceSign_flip h.nodup hn hs fun c hc => partner_self_odd hn w hc]
    congr 1
    split
    · rename_i hf
      congr 2
      refine List.map_congr_left fun c hc => ?_
      have hc' : c.1 ∈ ps.map Prod.fst := List.mem_map_of_mem hc
      have e : oddAt (partner ps w w) c.1 = oddAt w c.1 := oddAt_congr (partner_free w w (n3 _ hc'))
      by_cases ho : oddAt w c.1 = true
      · rw [ha hf c.1 hc' (arrowValid_of_odd (hw c.1 hc') ho)]
      · rw [e, if_neg (fun x => ho x.2), if_neg (fun x => ho x.2)]
    · rfl

/-! ## traces of contractions -/

section contraction
variable {cs ps : List (ν × ν)}

theorem trace_contract_exchange {odd odd1 odd2 : ν → Bool} {N1 N2 : List ν} (hn1 : N1.Nodup)
    (hn2 : N2.Nodup) (hp : Pairs N1 N2 (cs ++ ps))
    (nd : (others N1 (cs.map Prod.fst) ++ others N2 (cs.map Prod.snd)).Nodup)
    (ho1 : ∀ n ∈ others N1 (cs.map Prod.fst), odd n = odd1 n)
    (ho2 : ∀ n ∈ others N2 (cs.map Prod.snd), odd n = odd2 n)
    (hps : ∀ c ∈ ps, odd c.1 = odd c.2) :
    exchangeOf odd (others N1 (cs.map Prod.fst) ++ others N2 (cs.map Prod.snd))
        (((ps.map Prod.fst).reverse ++ ps.map Prod.snd) ++
          (others N1 ((cs ++ ps).map Prod.fst) ++ others N2 ((cs ++ ps).map Prod.snd))) *
      (exchangeOf odd1 N1 (others N1 (cs.map Prod.fst) ++ (cs.map Prod.fst).reverse) *
        exchangeOf odd2 N2 (cs.map Prod.snd ++ others N2 (cs.map Prod.snd))) =
    exchangeOf odd1 N1 (others N1 ((cs ++ ps).map Prod.fst) ++ ((cs ++ ps).map Prod.fst).reverse) *
      exchangeOf odd2 N2 ((cs ++ ps).map Prod.snd ++ others N2 ((cs ++ ps).map Prod.snd)) := by
  have m1 := hp.nodup1
  have m2 := hp.nodup2
  rw [List.map_append] at m1 m2
  have sub1 : ∀ n ∈ cs.map Prod.fst ++ ps.map Prod.fst, n ∈ N1 := by
    intro n hn
    rw [← List.map_append] at hn
    obtain ⟨c, hc, rfl⟩ := List.mem_map.1 hn
    exact hp.sub1 c hc
  have sub2 : ∀ n ∈ cs.map Prod.snd ++ ps.map Prod.snd, n ∈ N2 := by
    intro n hn
    rw [← List.map_append] at hn
    obtain ⟨c, hc, rfl⟩ := List.mem_map.1 hn
    exact hp.sub2 c hc
  have hev : oddCount odd ((ps.map Prod.fst).reverse ++ ps.map Prod.snd) % 2 = 0 := by
    rw [oddCount_append, oddCount_perm odd (List.reverse_perm _)]
    have : oddCount odd (ps.map Prod.fst) = oddCount odd (ps.map Prod.snd) := by
      unfold oddCount
      rw [List.map_map, List.map_map]
      congr 1
      exact List.map_congr_left fun c hc => hps c hc
    omega
  simp only [List.map_append]
  set C1 := cs.map Prod.fst
  set C2 := cs.map Prod.snd
  set P1 := ps.map Prod.fst
  set P2 := ps.map Prod.snd
  have d1 := (List.nodup_append.1 m1).2.2
  have d2 := (List.nodup_append.1 m2).2.2
  have hP1 : ∀ n ∈ P1, n ∈ others N1 C1 := fun n h =>
    mem_others.2 ⟨sub1 n (List.mem_append_right _ h), fun h' => d1 n h' n h rfl⟩
  have hP2 : ∀ n ∈ P2, n ∈ others N2 C2 := fun n h =>
    mem_others.2 ⟨sub2 n (List.mem_append_right _ h), fun h' => d2 n h' n h rfl⟩
  have two : ∀ (N A B : List ν), others (others N A) B = others N (A ++ B) := by
    intro N A B
    unfold others
    rw [List.filter_filter]
    refine List.filter_congr fun n _ => ?_
    simp [List.mem_append, not_or, Bool.and_comm]
  have p1 : (others N1 C1).Perm (others N1 (C1 ++ P1) ++ P1) := by
    rw [← two]
    exact others_perm (hn1.filter _) (List.nodup_append.1 m1).2.1 hP1
  have p2 : (others N2 C2).Perm (others N2 (C2 ++ P2) ++ P2) := by
    rw [← two]
    exact others_perm (hn2.filter _) (List.nodup_append.1 m2).2.1 hP2
  have p1' : (others N1 C1).Perm (others N1 (C1 ++ P1) ++ P1.reverse) :=
    p1.trans ((List.reverse_perm P1).symm.append_left _)
  have p2' : (others N2 C2).Perm (P2 ++ others N2 (C2 ++ P2)) := p2.trans List.perm_append_comm
  have q1 : N1.Perm (others N1 C1 ++ C1.reverse) :=
    (others_perm hn1 (List.nodup_append.1 m1).1 fun n h => sub1 n (List.mem_append_left _ h)).trans
      ((List.reverse_perm C1).symm.append_left _)
  have q2 : N2.Perm (C2 ++ others N2 C2) :=
    (others_perm hn2 (List.nodup_append.1 m2).1 fun n h => sub2 n (List.mem_append_left _ h)).trans
      List.perm_append_comm
  have dd := (List.nodup_append.1 nd).2.2
  -- all pairs between the two groups of free edges
  have mid : (others N1 C1 ++ others N2 C2).Perm (others N1 (C1 ++ P1) ++
      ((P1.reverse ++ P2) ++ others N2 (C2 ++ P2))) := by
    have := p1'.append p2'
    simpa only [List.append_assoc] using this
  have e1 : exchangeOf odd (others N1 C1 ++ others N2 C2)
      ((P1.reverse ++ P2) ++ (others N1 (C1 ++ P1) ++ others N2 (C2 ++ P2))) =
      exchangeOf odd1 (others N1 C1) (others N1 (C1 ++ P1) ++ P1.reverse) *
        exchangeOf odd2 (others N2 C2) (P2 ++ others N2 (C2 ++ P2)) := by
    have hfr : (others N1 (C1 ++ P1) ++ ((P1.reverse ++ P2) ++ others N2 (C2 ++ P2))).Perm
        ((P1.reverse ++ P2) ++ (others N1 (C1 ++ P1) ++ others N2 (C2 ++ P2))) := by
      rw [← List.append_assoc, ← List.append_assoc (P1.reverse ++ P2)]
      exact List.perm_append_comm.append_right _
    rw [← exchangeOf_mul odd mid hfr, exchange_even_front (mid.nodup_iff.1 nd) hev, mul_one]
    have := exchangeOf_append odd p1' p2' (fun x hx hx' => dd x hx x hx' rfl)
    rw [exchangeOf_congr ho1, exchangeOf_congr ho2] at this
    rw [← this]
    simp only [List.append_assoc]
  have e2 : exchangeOf odd1 N1 (others N1 (C1 ++ P1) ++ (C1 ++ P1).reverse) =
      exchangeOf odd1 N1 (others N1 C1 ++ C1.reverse) *
        exchangeOf odd1 (others N1 C1) (others N1 (C1 ++ P1) ++ P1.reverse) := by
    rw [List.reverse_append, ← List.append_assoc, ← exchangeOf_mul odd1 q1 (p1'.append_right _),
      exchangeOf_append odd1 p1' (List.Perm.refl C1.reverse) (fun x hx hx' =>
        (mem_others.1 hx).2 (List.mem_reverse.1 hx')), exchangeOf_refl, mul_one]
  have e3 : exchangeOf odd2 N2 ((C2 ++ P2) ++ others N2 (C2 ++ P2)) =
      exchangeOf odd2 N2 (C2 ++ others N2 C2) *
        exchangeOf odd2 (others N2 C2) (P2 ++ others N2 (C2 ++ P2)) := by
    rw [List.append_assoc, ← exchangeOf_mul odd2 q2 (p2'.append_left _),
      exchangeOf_append odd2 (List.Perm.refl C2) p2' (fun x hx hx' => (mem_others.1 hx').2 hx),
      exchangeOf_refl, one_mul]
  rw [e1, e2, e3]
  ring

/-- Names of pairs between the free edges of two tensors. -/
theorem others_traced {N1 N2 : List ν} (hp : Pairs N1 N2 (cs ++ ps))
    (nd : (others N1 (cs.map Prod.fst) ++ others N2 (cs.map Prod.snd)).Nodup) :
    (∀ n ∈ ps.map Prod.fst, n ∈ others N1 (cs.map Prod.fst)) ∧
    (∀ n ∈ ps.map Prod.snd, n ∈ others N2 (cs.map Prod.snd)) ∧ (pairNames ps).Nodup ∧
    others (others N1 (cs.map Prod.fst) ++ others N2 (cs.map Prod.snd)) (pairNames ps) =
      others N1 ((cs ++ ps).map Prod.fst) ++ others N2 ((cs ++ ps).map Prod.snd) := by
  have m1 := hp.nodup1
  have m2 := hp.nodup2
  rw [List.map_append] at m1 m2
  have d1 := (List.nodup_append.1 m1).2.2
  have d2 := (List.nodup_append.1 m2).2.2
  have hP1 : ∀ n ∈ ps.map Prod.fst, n ∈ others N1 (cs.map Prod.fst) := fun n h => by
    refine mem_others.2 ⟨?_, fun h' => d1 n h' n h rfl⟩
    obtain ⟨c, hc, rfl⟩ := List.mem_map.1 h
    exact hp.sub1 c (List.mem_append_right _ hc)
  have hP2 : ∀ n ∈ ps.map Prod.snd, n ∈ others N2 (cs.map Prod.snd) := fun n h => by
    refine mem_others.2 ⟨?_, fun h' => d2 n h' n h rfl⟩
    obtain ⟨c, hc, rfl⟩ := List.mem_map.1 h
    exact hp.sub2 c (List.mem_append_right _ hc)
  have dd := (List.nodup_append.1 nd).2.2
  refine ⟨hP1, hP2, ?_, ?_⟩
  · rw [(pairNames_split ps).nodup_iff, List.nodup_append]
    exact ⟨(List.nodup_append.1 m1).2.1, (List.nodup_append.1 m2).2.1, fun a ha b hb =>
      dd a (hP1 a ha) b (hP2 b hb)⟩
  · rw [others_append]
    congr 1
    · unfold others
      rw [List.filter_filter]
      refine List.filter_congr fun n hn => ?_
      rw [← Bool.decide_and]
      refine decide_eq_decide.2 ?_
      rw [List.map_append, List.mem_append, not_or, (pairNames_split ps).mem_iff, List.mem_append,
        not_or]
      constructor
      · rintro ⟨⟨a, b⟩, c⟩; exact ⟨c, a⟩
      · rintro ⟨a, b⟩
        exact ⟨⟨b, fun h => dd n (mem_others.2 ⟨hn, a⟩) n (hP2 n h) rfl⟩, a⟩
    · unfold others
      rw [List.filter_filter]
      refine List.filter_congr fun n hn => ?_
      rw [← Bool.decide_and]
      refine decide_eq_decide.2 ?_
      rw [List.map_append, List.mem_append, not_or, (pairNames_split ps).mem_iff, List.mem_append,
        not_or]
      constructor
      · rintro ⟨⟨a, b⟩, c⟩; exact ⟨c, b⟩
      · rintro ⟨a, b⟩
        exact ⟨⟨fun h => dd n (hP1 n h) n (mem_others.2 ⟨hn, a⟩) rfl, b⟩, a⟩

theorem zsmul_sum_list [CommRing α] {γ : Type} (s : ℤ) (l : List γ) (f : γ → α) :
    s • (l.map f).sum = (l.map fun x => s • f x).sum := by
  rw [List.smul_sum, List.map_map]; rfl

/-- Tracing a contraction is contracting more edges. -/
theorem traced_contracted [CommRing α] {t1 t2 r : Tensor ν σ α} (h1 : Shaped t1) (h2 : Shaped t2)
    (hp : Pairs t1.names t2.names (cs ++ ps)) (hr : IsContraction t1 t2 cs r) (p : ν → σ × ℕ) :
    traced r ps p = contracted t1 t2 (cs ++ ps) p := by
  have nd := hr.names ▸ hr.wf.nodup
  obtain ⟨hP1, hP2, hpn, hoth⟩ := others_traced hp nd
  obtain ⟨n1, n2, n3⟩ := pairs_split hpn
  have m1 := hp.nodup1
  have m2 := hp.nodup2
  rw [List.map_append] at m1 m2
  have dd := (List.nodup_append.1 nd).2.2
  have hps : ∀ n ∈ pairNames ps, n ∈ r.names := by
    intro n hn
    rw [hr.names]
    rcases List.mem_append.1 ((pairNames_split ps).mem_iff.1 hn) with h | h
    · exact List.mem_append_left _ (hP1 n h)
    · exact List.mem_append_right _ (hP2 n h)
  have hin : ∀ n ∈ ps.map Prod.fst, n ∈ r.names := fun n hn => by
    rw [hr.names]; exact List.mem_append_left _ (hP1 n hn)
  rw [traced_known hr.wf hpn hps (fm := mapOf t1) (arrow := fun n => (edgeOf t1 n).arrow)
    (fun n hn => mapOf_sorted' h1 n (mem_others.1 (hP1 n hn)).1)
    (fun n hn x hx => by
      have := hr.sub n (hin n hn) x hx
      rwa [outerEdge_left (hP1 n hn)] at this)
    (fun hf n hn hv => by
      have := hr.arrows hf n (hin n hn) hv
      rwa [outerEdge_left (hP1 n hn)] at this) hr.amps]
  conv_rhs => unfold contracted
  have hso : ∀ n ∈ (cs ++ ps).map Prod.fst, (edgePositions (mapOf t1 n)).Nodup := by
    intro n hn
    obtain ⟨c, hc, rfl⟩ := List.mem_map.1 hn
    exact edgePositions_nodup (mapOf_sorted' h1 _ (hp.sub1 c hc))
  rw [sumOver_perm hp.nodup1 hso (ns' := ps.map Prod.fst ++ cs.map Prod.fst)
    (by rw [List.map_append]; exact List.perm_append_comm), sumOver_append, sumOver_choices,
    sumOver_choices]
  congr 1
  refine List.map_congr_left fun y hy => ?_
  unfold contracted
  rw [sumOver_choices, sumOver_choices, zsmul_sum_list]
  congr 1
  refine List.map_congr_left fun x hx => ?_
  set w := overlayAll (ps.map Prod.fst) y p with hw
  set w' := partner ps w w with hw'
  have k1 : ∀ n ∈ t1.names, overlayAll (cs.map Prod.fst) x w' n = overlayAll (cs.map Prod.fst) x w n := by
    intro n hn
    by_cases hc : n ∈ cs.map Prod.fst
    · exact overlayAll_agree hx _ _ hc
    · rw [overlayAll_free hc, overlayAll_free hc, hw', partner_free]
      exact fun h => dd n (mem_others.2 ⟨hn, hc⟩) n (hP2 n h) rfl
  have c1 : ∀ c ∈ ps, c.1 ∉ cs.map Prod.fst := fun c hc =>
    (mem_others.1 (hP1 _ (List.mem_map_of_mem hc))).2
  have k2 : ∀ n ∈ t2.names, partner cs w' (overlayAll (cs.map Prod.fst) x w') n =
      partner (cs ++ ps) p (overlayAll (cs.map Prod.fst) x w) n := by
    intro n hn
    by_cases hc : n ∈ cs.map Prod.snd
    · obtain ⟨c, hc', rfl⟩ := List.mem_map.1 hc
      rw [partner_common (List.nodup_append.1 m2).1 _ _ hc',
        partner_common hp.nodup2 _ _ (List.mem_append_left _ hc'),
        overlayAll_agree hx w' w (List.mem_map_of_mem hc')]
    · rw [partner_free _ _ hc]
      by_cases hd : n ∈ ps.map Prod.snd
      · obtain ⟨c, hc', rfl⟩ := List.mem_map.1 hd
        rw [partner_common hp.nodup2 _ _ (List.mem_append_right _ hc'), hw',
          partner_common n2 _ _ hc', overlayAll_free (c1 c hc')]
      · rw [partner_free, hw', partner_free _ _ hd, hw, overlayAll_free]
        · exact fun h => dd n (hP1 n h) n (mem_others.2 ⟨hn, hc⟩) rfl
        · rw [List.map_append, List.mem_append]
          exact fun h => h.elim hc hd
  rw [amp_same k1, amp_same k2, smul_smul]
  congr 1
  unfold contractSign
  by_cases hf : TatSym.isFermi σ = true
  swap
  · simp only [if_neg hf]; norm_num
  simp only [if_pos hf]
  rw [exchangeOf_congr (fun n hn => oddAt_congr (k1 n hn)),
    exchangeOf_congr (fun n hn => oddAt_congr (k2 n hn))]
  have key := trace_contract_exchange (odd := oddAt w')
    (odd1 := oddAt (overlayAll (cs.map Prod.fst) x w))
    (odd2 := oddAt (partner (cs ++ ps) p (overlayAll (cs.map Prod.fst) x w))) h1.nodup h2.nodup hp nd
    (fun n hn => ?_) (fun n hn => ?_) (fun c hc => partner_self_odd hpn w hc)
  · rw [hr.names, hoth]
    have f1 : (cs.map fun c => if (edgeOf t1 c.1).arrow = false ∧
        oddAt (overlayAll (cs.map Prod.fst) x w') c.1 = true then (-1 : ℤ) else 1) =
        cs.map fun c => if (edgeOf t1 c.1).arrow = false ∧
          oddAt (overlayAll (cs.map Prod.fst) x w) c.1 = true then (-1 : ℤ) else 1 :=
      List.map_congr_left fun c hc => by
        rw [oddAt_congr (k1 _ (hp.sub1 c (List.mem_append_left _ hc)))]
    have f2 : (ps.map fun c => if (edgeOf t1 c.1).arrow = false ∧ oddAt w' c.1 = true then (-1 : ℤ)
        else 1) = ps.map fun c => if (edgeOf t1 c.1).arrow = false ∧
          oddAt (overlayAll (cs.map Prod.fst) x w) c.1 = true then (-1 : ℤ) else 1 :=
      List.map_congr_left fun c hc => by
        have : w' c.1 = overlayAll (cs.map Prod.fst) x w c.1 := by
          rw [hw', partner_free _ _ (n3 _ (List.mem_map_of_mem hc)), overlayAll_free (c1 c hc)]
        rw [oddAt_congr this]
    rw [f1, f2, List.map_append (f := fun c : ν × ν => if (edgeOf t1 c.1).arrow = false ∧
          oddAt (overlayAll (cs.map Prod.fst) x w) c.1 = true then (-1 : ℤ) else 1), List.prod_append]
    linear_combination (ps.map fun c => if (edgeOf t1 c.1).arrow = false ∧
      oddAt (overlayAll (cs.map Prod.fst) x w) c.1 = true then (-1 : ℤ) else 1).prod *
      (cs.map fun c => if (edgeOf t1 c.1).arrow = false ∧
      oddAt (overlayAll (cs.map Prod.fst) x w) c.1 = true then (-1 : ℤ) else 1).prod * key
  · refine oddAt_congr ?_
    rw [overlayAll_free (mem_others.1 hn).2, hw', partner_free]
    exact fun h => dd n hn n (hP2 n h) rfl
  · refine oddAt_congr ?_
    rw [← k2 n (mem_others.1 hn).1, partner_free _ _ (mem_others.1 hn).2]

end contraction

/-! ## traces of traces -/

section trace
variable {ps qs : List (ν × ν)}

theorem others_others (N A B : List ν) : others (others N A) B = others N (A ++ B) := by
  unfold others
  rw [List.filter_filter]
  refine List.filter_congr fun n _ => ?_
  simp [List.mem_append, not_or, Bool.and_comm]

theorem trace_trace_exchange {odd : ν → Bool} {N : List ν} (hN : N.Nodup)
    (hn : (pairNames (ps ++ qs)).Nodup) (hs : ∀ n ∈ pairNames (ps ++ qs), n ∈ N)
    (hps : ∀ c ∈ ps, odd c.1 = odd c.2) :
    exchangeOf odd N (((ps.map Prod.fst).reverse ++ ps.map Prod.snd) ++ others N (pairNames ps)) *
      exchangeOf odd (others N (pairNames ps)) (((qs.map Prod.fst).reverse ++ qs.map Prod.snd) ++
        others (others N (pairNames ps)) (pairNames qs)) =
    exchangeOf odd N ((((ps ++ qs).map Prod.fst).reverse ++ (ps ++ qs).map Prod.snd) ++
      others N (pairNames (ps ++ qs))) := by
  have hev : oddCount odd ((ps.map Prod.fst).reverse ++ ps.map Prod.snd) % 2 = 0 := by
    rw [oddCount_append, oddCount_perm odd (List.reverse_perm _)]
    have : oddCount odd (ps.map Prod.fst) = oddCount odd (ps.map Prod.snd) := by
      unfold oddCount
      rw [List.map_map, List.map_map]
      congr 1
      exact List.map_congr_left fun c hc => hps c hc
    omega
  have gp : ∀ l : List (ν × ν), (pairNames l).Perm ((l.map Prod.fst).reverse ++ l.map Prod.snd) :=
    fun l => (pairNames_split l).trans ((List.reverse_perm _).append_right _).symm
  rw [pairNames_append] at hn hs ⊢
  rw [others_others]
  have hps1 : ∀ n ∈ pairNames ps, n ∈ N := fun n h => hs n (List.mem_append_left _ h)
  have d := (List.nodup_append.1 hn).2.2
  have q1 : N.Perm (((ps.map Prod.fst).reverse ++ ps.map Prod.snd) ++ others N (pairNames ps)) :=
    (others_perm hN (List.nodup_append.1 hn).1 hps1).trans
      (List.perm_append_comm.trans ((gp ps).append_right _))
  have q2 : (others N (pairNames ps)).Perm (((qs.map Prod.fst).reverse ++ qs.map Prod.snd) ++
      others N (pairNames ps ++ pairNames qs)) := by
    rw [← others_others]
    exact (others_perm (hN.filter _) (List.nodup_append.1 hn).2.1 fun n h => mem_others.2
      ⟨hs n (List.mem_append_right _ h), fun h' => d n h' n h rfl⟩).trans
      (List.perm_append_comm.trans ((gp qs).append_right _))
  have e : exchangeOf odd (others N (pairNames ps)) (((qs.map Prod.fst).reverse ++ qs.map Prod.snd) ++
        others N (pairNames ps ++ pairNames qs)) =
      exchangeOf odd (((ps.map Prod.fst).reverse ++ ps.map Prod.snd) ++ others N (pairNames ps))
        (((ps.map Prod.fst).reverse ++ ps.map Prod.snd) ++
          (((qs.map Prod.fst).reverse ++ qs.map Prod.snd) ++
          others N (pairNames ps ++ pairNames qs))) := by
    rw [exchangeOf_append odd (List.Perm.refl _) q2 (fun x hx hx' =>
      (mem_others.1 hx').2 ((gp ps).mem_iff.2 hx)), exchangeOf_refl, one_mul]
  rw [e, exchangeOf_mul odd q1 (q2.append_left _)]
  -- bring the pairs of the first trace between those of the second
  have hfin : (((ps ++ qs).map Prod.fst).reverse ++ (ps ++ qs).map Prod.snd) ++
      others N (pairNames ps ++ pairNames qs) = (qs.map Prod.fst).reverse ++
      (((ps.map Prod.fst).reverse ++ ps.map Prod.snd) ++
        (qs.map Prod.snd ++ others N (pairNames ps ++ pairNames qs))) := by
    simp only [List.map_append, List.reverse_append, List.append_assoc]
  rw [hfin]
  have q3 := q1.trans (q2.append_left ((ps.map Prod.fst).reverse ++ ps.map Prod.snd))
  have q4 : ((qs.map Prod.fst).reverse ++ (((ps.map Prod.fst).reverse ++ ps.map Prod.snd) ++
        (qs.map Prod.snd ++ others N (pairNames ps ++ pairNames qs)))).Perm
      (((ps.map Prod.fst).reverse ++ ps.map Prod.snd) ++ ((qs.map Prod.fst).reverse ++
        (qs.map Prod.snd ++ others N (pairNames ps ++ pairNames qs)))) := by
    rw [← List.append_assoc, ← List.append_assoc ((ps.map Prod.fst).reverse ++ ps.map Prod.snd)]
    exact List.perm_append_comm.append_right _
  rw [List.append_assoc (qs.map Prod.fst).reverse] at q3 ⊢
  have q5 := q3.trans q4.symm
  rw [← exchangeOf_mul odd q5 q4, exchange_even_front (q5.nodup_iff.1 hN) hev, mul_one]

/-- Tracing a trace is tracing more pairs. -/
theorem traced_traced [CommRing α] {t r : Tensor ν σ α} (h : Shaped t)
    (hn : (pairNames (ps ++ qs)).Nodup) (hs : ∀ n ∈ pairNames (ps ++ qs), n ∈ t.names)
    (hr : IsTrace t ps r) (p : ν → σ × ℕ) :
    traced r qs p = traced t (ps ++ qs) p := by
  have hn' := hn
  have hs' := hs
  rw [pairNames_append] at hn' hs'
  have d := (List.nodup_append.1 hn').2.2
  have np := (List.nodup_append.1 hn').1
  have nq := (List.nodup_append.1 hn').2.1
  have sp : ∀ n ∈ pairNames ps, n ∈ t.names := fun n h => hs' n (List.mem_append_left _ h)
  obtain ⟨a1, a2, a3⟩ := pairs_split np
  obtain ⟨b1, b2, b3⟩ := pairs_split nq
  obtain ⟨c1, c2, c3⟩ := pairs_split hn
  have memq : ∀ n ∈ pairNames qs, n ∈ others t.names (pairNames ps) := fun n h =>
    mem_others.2 ⟨hs' n (List.mem_append_right _ h), fun h' => d n h' n h rfl⟩
  have fq : ∀ n ∈ qs.map Prod.fst, n ∈ pairNames qs := fun n h =>
    (pairNames_split qs).mem_iff.2 (List.mem_append_left _ h)
  have sq : ∀ n ∈ qs.map Prod.snd, n ∈ pairNames qs := fun n h =>
    (pairNames_split qs).mem_iff.2 (List.mem_append_right _ h)
  have fp : ∀ n ∈ ps.map Prod.fst, n ∈ pairNames ps := fun n h =>
    (pairNames_split ps).mem_iff.2 (List.mem_append_left _ h)
  have spn : ∀ n ∈ ps.map Prod.snd, n ∈ pairNames ps := fun n h =>
    (pairNames_split ps).mem_iff.2 (List.mem_append_right _ h)
  have hqr : ∀ n ∈ pairNames qs, n ∈ r.names := fun n h => by rw [hr.names]; exact memq n h
  rw [traced_known hr.wf nq hqr (fm := mapOf t) (arrow := fun n => (edgeOf t n).arrow)
    (fun n hn => mapOf_sorted' h n (mem_others.1 (memq n (fq n hn))).1)
    (fun n hn x hx => hr.sub n (hqr n (fq n hn)) x hx)
    (fun hf n hn hv => hr.arrows hf n (hqr n (fq n hn)) hv) hr.amps,
    traced_partner h hn hs]
  have hso : ∀ n ∈ (ps ++ qs).map Prod.fst, (edgePositions (mapOf t n)).Nodup := by
    intro n hn'
    exact edgePositions_nodup (mapOf_sorted' h _ (hs n ((pairNames_split _).mem_iff.2
      (List.mem_append_left _ hn'))))
  rw [sumOver_perm c1 hso (ns' := qs.map Prod.fst ++ ps.map Prod.fst)
    (by rw [List.map_append]; exact List.perm_append_comm), sumOver_append, sumOver_choices,
    sumOver_choices]
  congr 1
  refine List.map_congr_left fun y hy => ?_
  rw [traced_partner h np sp, sumOver_choices, sumOver_choices, zsmul_sum_list]
  congr 1
  refine List.map_congr_left fun x hx => ?_
  set w := overlayAll (qs.map Prod.fst) y p with hw
  set w' := partner qs w w with hw'
  set u := overlayAll (ps.map Prod.fst) x w' with hu
  set z := overlayAll (ps.map Prod.fst) x w with hz
  have k : partner ps u u = partner (ps ++ qs) z z := by
    funext n
    by_cases m2 : n ∈ ps.map Prod.snd
    · obtain ⟨c, hc, rfl⟩ := List.mem_map.1 m2
      rw [partner_common a2 _ _ hc, partner_common c2 _ _ (List.mem_append_left _ hc), hu, hz,
        overlayAll_agree hx w' w (List.mem_map_of_mem hc)]
    · rw [partner_free _ _ m2]
      by_cases m4 : n ∈ qs.map Prod.snd
      · obtain ⟨c, hc, rfl⟩ := List.mem_map.1 m4
        have g1 : c.2 ∉ ps.map Prod.fst := fun h' => d _ (fp _ h') _ (sq _ m4) rfl
        have g2 : c.1 ∉ ps.map Prod.fst := fun h' =>
          d _ (fp _ h') _ (fq _ (List.mem_map_of_mem hc)) rfl
        rw [partner_common c2 _ _ (List.mem_append_right _ hc), hu, hz, overlayAll_free g1,
          overlayAll_free g2, hw', partner_common b2 _ _ hc]
      · rw [partner_free]
        · by_cases m1 : n ∈ ps.map Prod.fst
          · exact overlayAll_agree hx _ _ m1
          · rw [hu, hz, overlayAll_free m1, overlayAll_free m1, hw', partner_free _ _ m4]
        · rw [List.map_append, List.mem_append]
          exact fun h' => h'.elim m2 m4
  rw [k, smul_smul]
  congr 1
  rw [traceSign_flip h.nodup np sp (fun c hc => by rw [← k]; exact partner_self_odd np u hc),
    traceSign_flip h.nodup hn hs (fun c hc => partner_self_odd hn z hc)]
  by_cases hf : TatSym.isFermi σ = true
  swap
  · simp only [if_neg hf]; norm_num
  simp only [if_pos hf]
  -- the position seen by the second trace agrees outside the pairs of the first
  have k' : ∀ n ∈ others t.names (pairNames ps), w' n = partner (ps ++ qs) z z n := by
    intro n hn'
    have g := (mem_others.1 hn').2
    rw [← k, partner_free _ _ (fun h' => g (spn n h')), hu, overlayAll_free (fun h' => g (fp n h'))]
  have f2 : (qs.map fun c => if (edgeOf t c.1).arrow = false ∧ oddAt w' c.1 = true then (-1 : ℤ)
      else 1) = qs.map fun c => if (edgeOf t c.1).arrow = false ∧
        oddAt (partner (ps ++ qs) z z) c.1 = true then (-1 : ℤ) else 1 :=
    List.map_congr_left fun c hc => by
      rw [oddAt_congr (k' _ (memq _ (fst_mem_pairNames hc)))]
  have key := trace_trace_exchange (odd := oddAt (partner (ps ++ qs) z z)) h.nodup hn hs
    (fun c hc => partner_self_odd hn z (List.mem_append_left _ hc))
  rw [hr.names, exchangeOf_congr (fun n hn => oddAt_congr (k' n hn)), f2,
    List.map_append (f := fun c : ν × ν => if (edgeOf t c.1).arrow = false ∧
        oddAt (partner (ps ++ qs) z z) c.1 = true then (-1 : ℤ) else 1), List.prod_append]
  linear_combination (ps.map fun c => if (edgeOf t c.1).arrow = false ∧
      oddAt (partner (ps ++ qs) z z) c.1 = true then (-1 : ℤ) else 1).prod *
    (qs.map fun c => if (edgeOf t c.1).arrow = false ∧
      oddAt (partner (ps ++ qs) z z) c.1 = true then (-1 : ℤ) else 1).prod * key

/-- Tracing a transposed tensor. -/
theorem traced_transpose [CommRing α] {t t' : Tensor ν σ α} (h : Shaped t)
    (hn : (pairNames ps).Nodup) (hs : ∀ n ∈ pairNames ps, n ∈ t.names)
    (hp : t.names.Perm t'.names) (he : ∀ n ∈ t.names, edgeOf t' n = edgeOf t n)
    (ha : ∀ p, amp t' p = transposeSign t.names t'.names p • amp t p) (p : ν → σ × ℕ) :
    traced t' ps p = transposeSign (others t.names (pairNames ps)) (others t'.names (pairNames ps)) p •
      traced t ps p := by
  unfold traced
  rw [← sumOver_smul, sumOver_same_edges (E' := fun n => edgePositions (mapOf t n)) _ fun n hn' => by
    show edgePositions (edgeOf t' n).map = edgePositions (edgeOf t n).map
    rw [he n (hs n hn')]]
  refine sumOver_congr hn fun w _ hw => ?_
  by_cases hd : Diagonal ps w
  swap
  · rw [if_neg hd, if_neg hd, smul_zero]
  rw [if_pos hd, if_pos hd, ha, smul_smul, smul_smul]
  congr 1
  have hout : ps.map (outOf t') = ps.map (outOf t) := List.map_congr_left fun c hc => by
    unfold outOf
    rw [he _ (hs _ (fst_mem_pairNames hc))]
  have hin : ps.map (inOf t') = ps.map (inOf t) := List.map_congr_left fun c hc => by
    unfold inOf
    rw [he _ (hs _ (fst_mem_pairNames hc))]
  unfold traceSign transposeSign
  by_cases hf : TatSym.isFermi σ = true
  swap
  · simp only [if_neg hf]
  simp only [if_pos hf]
  rw [hout, hin, ← List.append_assoc, ← List.append_assoc]
  set G := (ps.map (outOf t)).reverse ++ ps.map (inOf t)
  have hG : (pairNames ps).Perm G :=
    (pairNames_split ps).trans (((List.reverse_perm _).append_right _).symm.trans
      (flips_perm (fun c => (edgeOf t c.1).arrow) ps))
  have o := others_perm_names hp (pairNames ps)
  have q : t.names.Perm (G ++ others t.names (pairNames ps)) :=
    (others_perm h.nodup hn hs).trans (List.perm_append_comm.trans (hG.append_right _))
  have q' : t'.names.Perm (G ++ others t'.names (pairNames ps)) :=
    hp.symm.trans (q.trans (o.append_left G))
  rw [mul_comm, exchangeOf_mul _ hp q', ← exchangeOf_mul _ q (o.append_left G),
    exchangeOf_append _ (List.Perm.refl G) o (fun x hx hx' => (mem_others.1 hx').2 (hG.mem_iff.2 hx)),
    exchangeOf_refl, one_mul, mul_comm]
  congr 1
  exact exchangeOf_congr (fun n hn => oddAt_congr (hw n (mem_others.1 hn).2)) _

end trace

end TAT
