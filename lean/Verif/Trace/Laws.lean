import Verif.Trace.Props
import Verif.Contract.LawProps
import Verif.Svd.Norm

/-!
# Helper lemmas for the laws of the trace

The trace as a sum over one edge of each pair, signs of traces, traces of traces and of contractions.
-/

set_option linter.unusedSectionVars false

namespace TAT

variable {ν σ α β : Type}

/-! ## signs -/

section
variable [LinearOrder ν]

theorem oddCount_append (odd : ν → Bool) (A B : List ν) :
    oddCount odd (A ++ B) = oddCount odd A + oddCount odd B := by
  unfold oddCount
  rw [List.map_append, List.count_append]

theorem oddCount_perm (odd : ν → Bool) {A B : List ν} (h : A.Perm B) :
    oddCount odd A = oddCount odd B := (h.map odd).count_eq true

/-- A group of edges of which an even number is odd can be moved to the front. -/
theorem exchange_even_front {odd : ν → Bool} {A G B : List ν} (hn : (A ++ (G ++ B)).Nodup)
    (he : oddCount odd G % 2 = 0) : exchangeOf odd (A ++ (G ++ B)) (G ++ (A ++ B)) = 1 := by
  rw [← List.append_assoc] at hn
  have hAG := (List.nodup_append.1 hn).1
  have hd := (List.nodup_append.1 hn).2.2
  rw [← List.append_assoc, ← List.append_assoc,
    exchangeOf_append odd List.perm_append_comm (List.Perm.refl B) (fun x hx hx' => hd x hx x hx' rfl),
    exchangeOf_refl, mul_one,
    exchangeOf_swap odd (List.nodup_append.1 hAG).1 (List.nodup_append.1 hAG).2.1
      (fun x hx hx' => (List.nodup_append.1 hAG).2.2 x hx x hx' rfl)]
  exact Even.neg_one_pow ((Nat.even_iff.2 he).mul_left _)

theorem exchange_even {odd : ν → Bool} {A A' G B B' : List ν} (hn : (A ++ (G ++ B)).Nodup)
    (hp : (A ++ B).Perm (A' ++ B')) (he : oddCount odd G % 2 = 0) :
    exchangeOf odd (A ++ (G ++ B)) (A' ++ (G ++ B')) = exchangeOf odd (A ++ B) (A' ++ B') := by
  have m : ∀ X Y : List ν, (X ++ (G ++ Y)).Perm (G ++ (X ++ Y)) := fun X Y => by
    rw [← List.append_assoc, ← List.append_assoc]
    exact List.perm_append_comm.append_right Y
  have k : (G ++ (A ++ B)).Perm (G ++ (A' ++ B')) := hp.append_left G
  have hn' : (A' ++ (G ++ B')).Nodup :=
    ((m A B).trans (k.trans (m A' B').symm)).nodup_iff.1 hn
  have hg := ((m A B).nodup_iff.1 hn)
  rw [← exchangeOf_mul odd (m A B) (k.trans (m A' B').symm), exchange_even_front hn he, one_mul,
    ← exchangeOf_mul odd k (m A' B').symm, exchangeOf_symm odd (m A' B'), exchange_even_front hn' he,
    mul_one, exchangeOf_append odd (List.Perm.refl G) hp
      (fun x hx hx' => (List.nodup_append.1 hg).2.2 x hx x hx' rfl), exchangeOf_refl, one_mul]

theorem flips_perm (b : ν × ν → Bool) (l : List (ν × ν)) :
    ((l.map Prod.fst).reverse ++ l.map Prod.snd).Perm
      ((l.map fun c => if b c then c.1 else c.2).reverse ++
        l.map fun c => if b c then c.2 else c.1) := by
  refine ((List.reverse_perm _).append_right _).trans
    (List.Perm.trans ?_ ((List.reverse_perm _).append_right _).symm)
  induction l with
  | nil => exact List.Perm.refl _
  | cons c l ih =>
    simp only [List.map_cons, List.cons_append]
    cases hb : b c
    · simp only [Bool.false_eq_true, if_false]
      refine (List.perm_middle.cons _).trans ?_
      refine (List.Perm.swap _ _ _).trans ?_
      exact ((ih.cons _).trans List.perm_middle.symm).cons _
    · simp only [if_true]
      exact (List.perm_middle.trans ((ih.cons _).trans List.perm_middle.symm)).cons _

/-- Turning some of the pairs round. -/
theorem exchange_flips {odd : ν → Bool} (b : ν × ν → Bool) {ps : List (ν × ν)}
    (hn : ((ps.map Prod.fst).reverse ++ ps.map Prod.snd).Nodup) (ho : ∀ c ∈ ps, odd c.1 = odd c.2) :
    exchangeOf odd ((ps.map Prod.fst).reverse ++ ps.map Prod.snd)
      ((ps.map fun c => if b c then c.1 else c.2).reverse ++
        ps.map fun c => if b c then c.2 else c.1) =
      (ps.map fun c => if b c = false ∧ odd c.1 = true then (-1 : ℤ) else 1).prod := by
  induction ps with
  | nil => simp [exchangeOf]
  | cons c ps ih =>
    simp only [List.map_cons, List.reverse_cons, List.append_assoc, List.cons_append,
      List.nil_append, List.prod_cons] at hn ⊢
    set A := (ps.map Prod.fst).reverse
    set B := ps.map Prod.snd
    have hoc := ho c (by simp)
    have e0 : oddCount odd [if b c then c.1 else c.2, if b c then c.2 else c.1] % 2 = 0 := by
      unfold oddCount
      cases b c <;> cases h1 : odd c.1 <;> rw [h1] at hoc <;> simp [h1, ← hoc]
    have q1 : [c.1, c.2].Perm [if b c then c.1 else c.2, if b c then c.2 else c.1] := by
      cases b c
      · exact List.Perm.swap _ _ _
      · exact List.Perm.refl _
    have hn1 : (A ++ ([c.1, c.2] ++ B)).Nodup := by simpa using hn
    have hAB : (A ++ B).Nodup := by
      have : (A ++ ([c.1, c.2] ++ B)).Perm ([c.1, c.2] ++ (A ++ B)) := by
        rw [← List.append_assoc, ← List.append_assoc]
        exact List.perm_append_comm.append_right B
      exact (List.nodup_append.1 (this.nodup_iff.1 hn1)).2.1
    have hne : c.1 ≠ c.2 := by
      have := (List.nodup_append.1 (List.nodup_append.1 hn1).2.1).1
      simpa using this
    have key : exchangeOf odd [c.1, c.2] [if b c then c.1 else c.2, if b c then c.2 else c.1] =
        if b c = false ∧ odd c.1 = true then (-1 : ℤ) else 1 := by
      cases hb : b c
      · simp only [Bool.false_eq_true, if_false, true_and]
        have := exchangeOf_swap odd (A := [c.1]) (B := [c.2]) (by simp) (by simp) (by simpa using hne)
        simp only [List.cons_append, List.nil_append] at this
        rw [this]
        unfold oddCount
        cases h1 : odd c.1 <;> rw [h1] at hoc <;> simp [h1, ← hoc]
      · simp [exchangeOf_refl]
    have hn2 : (A ++ ([if b c then c.1 else c.2, if b c then c.2 else c.1] ++ B)).Nodup :=
      ((q1.append_right B).append_left A).nodup_iff.1 hn1
    have step1 : exchangeOf odd (A ++ ([c.1, c.2] ++ B))
        (A ++ ([if b c then c.1 else c.2, if b c then c.2 else c.1] ++ B)) =
        if b c = false ∧ odd c.1 = true then (-1 : ℤ) else 1 := by
      rw [exchangeOf_append odd (List.Perm.refl A) (q1.append_right B)
          (fun x hx hx' => (List.nodup_append.1 hn1).2.2 x hx x hx' rfl), exchangeOf_refl, one_mul,
        exchangeOf_append odd q1 (List.Perm.refl B) (fun x hx hx' =>
          (List.nodup_append.1 (List.nodup_append.1 hn1).2.1).2.2 x hx x hx' rfl),
        exchangeOf_refl, mul_one, key]
    have step2 := exchange_even (odd := odd) hn2 (flips_perm b ps) e0
    have q2 : (A ++ ([c.1, c.2] ++ B)).Perm
        (A ++ ([if b c then c.1 else c.2, if b c then c.2 else c.1] ++ B)) :=
      (q1.append_right B).append_left A
    have q3 : (A ++ ([if b c then c.1 else c.2, if b c then c.2 else c.1] ++ B)).Perm
        ((ps.map fun c => if b c then c.1 else c.2).reverse ++
          ([if b c then c.1 else c.2, if b c then c.2 else c.1] ++
            ps.map fun c => if b c then c.2 else c.1)) := by
      have m : ∀ G X Y : List ν, (X ++ (G ++ Y)).Perm (G ++ (X ++ Y)) := fun G X Y => by
        rw [← List.append_assoc, ← List.append_assoc]
        exact List.perm_append_comm.append_right Y
      exact (m _ _ _).trans (((flips_perm b ps).append_left _).trans (m _ _ _).symm)
    have := exchangeOf_mul odd q2 q3
    rw [step1, step2, ih hAB fun c hc => ho c (by simp [hc])] at this
    simp only [List.cons_append, List.nil_append] at this
    exact this.symm

end

/-! ## the trace as a sum over one edge of each pair -/

section
variable [LinearOrder ν] [TatSym σ]

theorem pairNames_split (ps : List (ν × ν)) :
    (pairNames ps).Perm (ps.map Prod.fst ++ ps.map Prod.snd) := by
  induction ps with
  | nil => simp [pairNames]
  | cons c ps ih =>
    rw [pairNames_cons]
    simp only [List.map_cons, List.cons_append]
    exact ((ih.cons _).trans List.perm_middle.symm).cons _

theorem pairNames_append (ps qs : List (ν × ν)) :
    pairNames (ps ++ qs) = pairNames ps ++ pairNames qs := List.flatMap_append ..

theorem fst_mem_pairNames {ps : List (ν × ν)} {c : ν × ν} (hc : c ∈ ps) : c.1 ∈ pairNames ps :=
  List.mem_flatMap.2 ⟨c, hc, by simp⟩

theorem snd_mem_pairNames {ps : List (ν × ν)} {c : ν × ν} (hc : c ∈ ps) : c.2 ∈ pairNames ps :=
  List.mem_flatMap.2 ⟨c, hc, by simp⟩

/-- Names of pairs: the first ones and the second ones are all different. -/
theorem pairs_split {ps : List (ν × ν)} (hn : (pairNames ps).Nodup) :
    (ps.map Prod.fst).Nodup ∧ (ps.map Prod.snd).Nodup ∧ ∀ n ∈ ps.map Prod.fst, n ∉ ps.map Prod.snd := by
  have := (pairNames_split ps).nodup_iff.1 hn
  rw [List.nodup_append] at this
  exact ⟨this.1, this.2.1, fun n h h' => this.2.2 n h n h' rfl⟩

theorem partner_self_odd {ps : List (ν × ν)} (hn : (pairNames ps).Nodup) (w : ν → σ × ℕ) {c : ν × ν}
    (hc : c ∈ ps) : oddAt (partner ps w w) c.1 = oddAt (partner ps w w) c.2 := by
  obtain ⟨_, h2, h3⟩ := pairs_split hn
  unfold oddAt
  rw [partner_common h2 w w hc, partner_free w w (h3 _ (List.mem_map_of_mem hc)), odd_neg]

/-- The sign of a trace with all pairs in the order given, times a sign for every odd pair that has to
be turned round. -/
theorem traceSign_flip {t : Tensor ν σ α} (ht : t.names.Nodup) {ps : List (ν × ν)}
    (hn : (pairNames ps).Nodup) (hs : ∀ n ∈ pairNames ps, n ∈ t.names) {u : ν → σ × ℕ}
    (ho : ∀ c ∈ ps, oddAt u c.1 = oddAt u c.2) :
    traceSign t ps u = if TatSym.isFermi σ then exchangeOf (oddAt u) t.names
        (((ps.map Prod.fst).reverse ++ ps.map Prod.snd) ++ others t.names (pairNames ps)) *
        (ps.map fun c => if (edgeOf t c.1).arrow = false ∧ oddAt u c.1 = true then (-1 : ℤ) else 1).prod
      else 1 := by
  unfold traceSign
  by_cases hf : TatSym.isFermi σ = true
  swap
  · rw [if_neg hf, if_neg hf]
  rw [if_pos hf, if_pos hf, ← List.append_assoc]
  have hK : (pairNames ps).Perm ((ps.map Prod.fst).reverse ++ ps.map Prod.snd) :=
    (pairNames_split ps).trans ((List.reverse_perm _).append_right _).symm
  have hO : (pairNames ps).Perm ((ps.map (outOf t)).reverse ++ ps.map (inOf t)) :=
    hK.trans (flips_perm (fun c => (edgeOf t c.1).arrow) ps)
  have q1 : t.names.Perm (((ps.map Prod.fst).reverse ++ ps.map Prod.snd) ++
      others t.names (pairNames ps)) :=
    (others_perm ht hn hs).trans (List.perm_append_comm.trans (hK.append_right _))
  rw [← exchangeOf_mul (oddAt u) q1 ((hK.symm.trans hO).append_right _)]
  congr 1
  rw [exchangeOf_append _ (hK.symm.trans hO) (List.Perm.refl _) (fun x hx hx' =>
    (mem_others.1 hx').2 (hK.mem_iff.2 hx)), exchangeOf_refl, mul_one]
  exact exchange_flips (fun c => (edgeOf t c.1).arrow) (hK.nodup_iff.1 hn) ho

theorem traced_partner [CommRing α] {t : Tensor ν σ α} (h : Shaped t) {ps : List (ν × ν)}
    (hn : (pairNames ps).Nodup) (hs : ∀ n ∈ pairNames ps, n ∈ t.names) (p : ν → σ × ℕ) :
    traced t ps p = sumOver (fun n => edgePositions (mapOf t n))
      (fun w => traceSign t ps (partner ps w w) • amp t (partner ps w w)) (ps.map Prod.fst) p := by
  classical
  obtain ⟨n1, n2, n3⟩ := pairs_split hn
  have hso : ∀ n ∈ pairNames ps, OMap.Sorted (mapOf t n) := fun n hn' => mapOf_sorted' h n (hs n hn')
  have hfst : ∀ n ∈ ps.map Prod.fst, n ∈ pairNames ps := fun n hn' =>
    (pairNames_split ps).mem_iff.2 (List.mem_append_left _ hn')
  have hsnd : ∀ n ∈ ps.map Prod.snd, n ∈ pairNames ps := fun n hn' =>
    (pairNames_split ps).mem_iff.2 (List.mem_append_right _ hn')
  unfold traced
  rw [sumOver_eq, sumOver_eq,
    ← List.sum_toFinset _ (assigns_nodup hn (fun n hn => edgePositions_nodup (hso n hn)) p),
    ← List.sum_toFinset _ (assigns_nodup n1
      (fun n hn => edgePositions_nodup (hso n (hfst n hn))) p)]
  have hdiag : ∀ w : ν → σ × ℕ, Diagonal ps (partner ps w w) := by
    intro w c hc
    rw [partner_common n2 w w hc, partner_free w w (n3 _ (List.mem_map_of_mem hc))]
    exact ⟨add_neg_cancel _, rfl⟩
  symm
  refine Finset.sum_bij_ne_zero (fun w _ _ => partner ps w w) ?_ ?_ ?_ ?_
  · intro w hw hne
    rw [List.mem_toFinset, mem_assigns n1] at hw
    have v : ValidPos t (partner ps w w) := by
      by_contra hc; exact hne (by rw [amp_zero' h hc, smul_zero])
    rw [List.mem_toFinset, mem_assigns hn]
    refine ⟨fun n hn' => (mem_edgePositions (hso n hn')).2 (((validPos_iff' h).1 v).1 n (hs n hn')),
      fun n hn' => ?_⟩
    rw [partner_free w w (fun hc => hn' (hsnd n hc)), hw.2 n (fun hc => hn' (hfst n hc))]
  · intro w hw _ w' hw' _ he
    rw [List.mem_toFinset, mem_assigns n1] at hw hw'
    funext n
    by_cases hc : n ∈ ps.map Prod.snd
    · rw [hw.2 n (fun hf => n3 n hf hc), hw'.2 n (fun hf => n3 n hf hc)]
    · have := congrFun he n
      rwa [partner_free w w hc, partner_free w' w' hc] at this
  · intro u hu hne
    rw [List.mem_toFinset, mem_assigns hn] at hu
    have hd : Diagonal ps u := by
      by_contra hc; exact hne (if_neg hc)
    have hback : partner ps (fun n => if n ∈ ps.map Prod.snd then p n else u n)
        (fun n => if n ∈ ps.map Prod.snd then p n else u n) = u := by
      funext n
      by_cases hc : n ∈ ps.map Prod.snd
      · obtain ⟨c, hc', rfl⟩ := List.mem_map.1 hc
        rw [partner_common n2 _ _ hc']
        rw [if_neg (n3 _ (List.mem_map_of_mem hc'))]
        obtain ⟨d1, d2⟩ := hd c hc'
        rw [d2, ← eq_neg_of_add_eq_zero_right d1]
      · rw [partner_free _ _ hc]
        rw [if_neg hc]
    refine ⟨fun n => if n ∈ ps.map Prod.snd then p n else u n, ?_, ?_, hback⟩
    · rw [List.mem_toFinset, mem_assigns n1]
      refine ⟨fun n hn' => ?_, fun n hn' => ?_⟩
      · rw [if_neg (n3 n hn')]
        exact hu.1 n (hfst n hn')
      · split
        · rfl
        · rename_i hc
          refine hu.2 n fun hk => ?_
          rcases List.mem_append.1 ((pairNames_split ps).mem_iff.1 hk) with hk | hk
          · exact hn' hk
          · exact hc hk
    · rw [hback]
      rw [if_pos hd] at hne
      exact hne
  · intro w _ _
    rw [if_pos (hdiag w)]

/-! ## what a trace computes -/

/-- `r` is the trace of a tensor: its names, its edges up to symmetries without blocks, and its
elements. -/
structure IsTrace [CommRing α] (t : Tensor ν σ α) (ps : List (ν × ν)) (r : Tensor ν σ α) : Prop where
  names : r.names = others t.names (pairNames ps)
  wf : WF r
  sub : ∀ n ∈ r.names, ∀ x ∈ mapOf r n, x ∈ mapOf t n
  arrows : TatSym.isFermi σ = true → ∀ n ∈ r.names, arrowValid (edgeOf r n) = true →
    (edgeOf r n).arrow = (edgeOf t n).arrow
  amps : ∀ p, amp r p = traced t ps p

theorem traced_outside [CommRing α] {t : Tensor ν σ α} (h : Shaped t) {ps : List (ν × ν)}
    (hn : (pairNames ps).Nodup) (hs : ∀ n ∈ pairNames ps, n ∈ t.names) {p : ν → σ × ℕ}
    (hv : ¬ FineOk (mapOf t) (others t.names (pairNames ps)) p) : traced t ps p = 0 := by
  unfold traced
  refine sumOver_zero hn fun w _ hw => ?_
  split
  swap
  · rfl
  rename_i hd
  by_cases v : ValidPos t w
  swap
  · rw [amp_zero' h v, smul_zero]
  exfalso
  rw [validPos_iff' h] at v
  refine hv ⟨fun n hn' => ?_, ?_⟩
  · rw [← hw n (mem_others.1 hn').2]
    exact v.1 n (mem_others.1 hn').1
  · have e := ((others_perm h.nodup hn hs).map fun n => (w n).1).sum_eq
    have k := v.2
    unfold keyOf at k ⊢
    rw [k, List.map_append, List.sum_append] at e
    have z : ((pairNames ps).map fun n => (w n).1).sum = 0 := by
      have : ∀ l : List (ν × ν), (∀ c ∈ l, (w c.1).1 + (w c.2).1 = 0) →
          ((pairNames l).map fun n => (w n).1).sum = 0 := by
        intro l
        induction l with
        | nil => intro _; rfl
        | cons c l ih =>
          intro hl
          rw [pairNames_cons, List.map_cons, List.map_cons, List.sum_cons, List.sum_cons,
            ih (fun d hd => hl d (by simp [hd])), add_zero]
          exact hl c (by simp)
      exact this ps fun c hc => (hd c hc).1
    rw [z, add_zero] at e
    rw [e]
    congr 1
    refine List.map_congr_left fun n hn' => ?_
    rw [hw n (mem_others.1 hn').2]

theorem isTrace_of [CommRing α] {t r : Tensor ν σ α} (h : Shaped t) {ps : List (ν × ν)}
    (hn : (pairNames ps).Nodup) (hs : ∀ n ∈ pairNames ps, n ∈ t.names)
    (hr : r.names = others t.names (pairNames ps)) (hw : WF r)
    (he : ∃ e : ν → Edge σ, r.core.edges = prunedEdges (r.names.map e) ∧ ∀ n ∈ r.names,
        (e n).map = mapOf t n ∧ (TatSym.isFermi σ = true → arrowValid (edgeOf t n) = true →
          (e n).arrow = (edgeOf t n).arrow))
    (hel : ∀ p, FineOk (mapOf t) r.names p → elem r p = some (traced t ps p)) :
    IsTrace t ps r := by
  classical
  obtain ⟨e, he1, he2⟩ := he
  rw [prunedEdges_named hw.nodup] at he1
  have heo : ∀ n ∈ r.names, edgeOf r n =
      ⟨(e n).arrow, usedMap (fun n => (e n).map) r.names n⟩ := fun n hn =>
    edgeOf_unique hw he1 n hn
  have hsub : ∀ n ∈ r.names, ∀ x ∈ mapOf r n, x ∈ mapOf t n := by
    intro n hn x hx
    unfold mapOf at hx
    rw [heo n hn] at hx
    rw [← (he2 n hn).1]
    exact (List.mem_filter.1 hx).1
  have hsorted : ∀ n ∈ r.names, OMap.Sorted (mapOf t n) := by
    intro n hn
    rw [hr] at hn
    exact mapOf_sorted' h n (mem_others.1 hn).1
  refine ⟨hr, hw, hsub, fun hf n hn hv => ?_, fun p => ?_⟩
  · rw [heo n hn]
    refine (he2 n hn).2 hf ?_
    unfold arrowValid at hv ⊢
    rw [List.any_eq_true] at hv ⊢
    obtain ⟨x, hx, hx'⟩ := hv
    exact ⟨x, hsub n hn x hx, hx'⟩
  · by_cases hv : ValidPos r p
    · have hv' := (validPos_iff hw).1 hv
      have := amp_valid hw hv
      rw [hel p ⟨fun n hn => ?_, hv'.2⟩, Option.some.injEq] at this
      · exact this.symm
      · have hn' := hv'.1 n hn
        cases hd : OMap.find? (mapOf r n) (p n).1 with
        | none => simp [dimM, hd] at hn'
        | some d =>
          have hm := hsub n hn _ (OMap.mem_of_find? hd)
          have := OMap.find?_of_mem (hsorted n hn).nodup hm
          simp only [dimM, hd] at hn'
          simp only [dimM, this]
          exact hn'
    · rw [amp_zero hw hv]
      by_cases hf : FineOk (mapOf t) r.names p
      · exfalso
        refine hv ((validPos_iff hw).2 ⟨fun n hn => ?_, hf.2⟩)
        have hk : KeyOk (mapOf t) r.names p := by
          refine ⟨fun m hm => ?_, hf.2⟩
          have := hf.1 m hm
          by_contra hc
          have := OMap.find?_eq_none.2 hc
          simp_all [dimM]
        have hd := hf.1 n hn
        cases hs : OMap.find? (mapOf t n) (p n).1 with
        | none => simp [dimM, hs] at hd
        | some d =>
          simp only [dimM, hs] at hd
          have hm := OMap.mem_of_find? hs
          have : ((p n).1, d) ∈ mapOf r n := by
            show _ ∈ (edgeOf r n).map
            rw [heo n hn]
            refine List.mem_filter.2 ⟨by dsimp only; rw [(he2 n hn).1]; exact hm, ?_⟩
            rw [decide_eq_true_eq]
            exact ⟨p, (keyOk_congr fun m hm => (he2 m hm).1).2 hk, rfl⟩
          have := OMap.find?_of_mem (mapOf_sorted' hw.shaped n hn).nodup this
          simp only [dimM, this]
          exact hd
      · rw [hr] at hf
        exact (traced_outside h hn hs hf).symm

/-- The conditions under which the trace is described by C30. -/
structure Traceable (t : Tensor ν σ α) (ps : List (ν × ν)) : Prop where
  nodup : (pairNames ps).Nodup
  names : ∀ n ∈ pairNames ps, n ∈ t.names
  matched : Matched t t ps
  separated : Separated t (ps.map Prod.fst) ∨ ∀ s : σ, -s = s

/-- A trace that succeeds computes the sum over the diagonal. -/
theorem ok_isTrace [CommRing α] {env1 env2 : Env σ α} {junk : List σ → ℕ → α}
    {tn : TraceNames ν} (htn : [tn.t1, tn.t2, tn.t3].Nodup) {t r : Tensor ν σ α} (h : WF t)
    {ps : List (ν × ν)} (hp : Traceable t ps) (hr : traceTensor env1 env2 junk tn t ps = .ok r) :
    IsTrace t ps r := by
  by_cases hz : ∃ p, keyOf t.names p ∈ OMap.keys t.core.blocks ∧
      (keyOf (others t.names (pairNames ps)) p).sum = 0
  · obtain ⟨r', r1, r2, r3, r4, r5⟩ :=
      C30_trace_partial env1 env2 junk htn h hp.nodup hp.names hp.matched hp.separated hz
    rw [hr, Outcome.ok.injEq] at r1
    subst r1
    exact isTrace_of h.shaped hp.nodup hp.names r2 r3 r4 r5
  · push Not at hz
    rw [C30_no_zero_block env1 env2 junk htn h hp.nodup hp.names hp.matched hp.separated hz] at hr
    cases hr

end

end TAT
