import Verif.Contract.Main
import Verif.EdgeMisc.Reject

/-!
# Contractions that throw
-/

namespace TAT

variable {ν σ α β γ : Type}

set_option linter.unusedSectionVars false

/-! ## loops that throw -/

theorem foldlM_ne_ub {f : β → γ → Outcome β} (hf : ∀ b c, f b c ≠ .ub) (l : List γ) (b : β) :
    l.foldlM f b ≠ .ub := by
  induction l generalizing b with
  | nil => intro h; cases h
  | cons x l ih =>
    rw [List.foldlM_cons]
    cases h : f b x with
    | ok v => exact ih v
    | error m => intro h'; cases h'
    | ub => exact absurd h (hf b x)

theorem foldlM_isError {f : β → γ → Outcome β} {l : List γ}
    (hf : ∀ b, ∀ c ∈ l, f b c ≠ .ub) (hx : ∃ c ∈ l, ∀ b, (f b c).isError = true) (b : β) :
    (l.foldlM f b).isError = true := by
  induction l generalizing b with
  | nil => obtain ⟨c, hc, _⟩ := hx; cases hc
  | cons x l ih =>
    rw [List.foldlM_cons]
    cases h : f b x with
    | error m => rfl
    | ub => exact absurd h (hf b x List.mem_cons_self)
    | ok v =>
      obtain ⟨c, hc, he⟩ := hx
      rcases List.mem_cons.1 hc with rfl | hc
      · have := he b
        rw [h] at this
        cases this
      · exact ih (fun b c hc => hf b c (List.mem_cons_of_mem _ hc)) ⟨c, hc, he⟩ v

theorem bind_ok {f : Outcome β} {k : β → Outcome γ} {r : γ} (h : f.bind k = .ok r) :
    ∃ v, f = .ok v ∧ k v = .ok r := by
  cases f with
  | ok v => exact ⟨v, rfl, h⟩
  | error m => cases h
  | ub => cases h

theorem isError_ne_ok {f : Outcome β} (h : f.isError = true) (r : β) : f ≠ .ok r := by
  rintro rfl
  cases h

/-! ## edges that do not fit -/

section
variable [LinearOrder ν] [TatSym σ]

theorem deleteStep_ne_ub (other : Edge σ) (m : List (σ × ℕ)) (x : σ × ℕ) :
    deleteStep other m x ≠ .ub := by
  unfold deleteStep
  split
  · split <;> intro h <;> cases h
  · intro h; cases h

theorem deleteUnused_ne_ub (this other : Edge σ) (name : ν) (del : List (ν × List (σ × ℕ))) :
    deleteUnused this other name del ≠ .ub := by
  unfold deleteUnused
  split
  · intro h; cases h
  · cases h : this.map.foldlM (deleteStep other) [] with
    | ok v => intro h'; cases h'
    | error m => intro h'; cases h'
    | ub => exact absurd h (foldlM_ne_ub (deleteStep_ne_ub other) _ _)

theorem deleteUnused_arrow (hf : TatSym.isFermi σ = true) {this other : Edge σ}
    (h : this.arrow = other.arrow) (name : ν) (del : List (ν × List (σ × ℕ))) :
    (deleteUnused this other name del).isError = true := by
  unfold deleteUnused
  rw [if_pos (by simp [hf, h])]
  rfl

theorem deleteUnused_dim {this other : Edge σ} {s : σ} {d1 d2 : ℕ}
    (h1 : OMap.find? this.map s = some d1) (h2 : OMap.find? other.map (-s) = some d2) (hd : d1 ≠ d2)
    (name : ν) (del : List (ν × List (σ × ℕ))) :
    (deleteUnused this other name del).isError = true := by
  unfold deleteUnused
  split
  · rfl
  · refine isError_bind _ (foldlM_isError (fun b c _ => deleteStep_ne_ub other b c)
      ⟨(s, d1), OMap.mem_of_find? h1, fun b => ?_⟩ _)
    unfold deleteStep
    dsimp only
    rw [h2]
    dsimp only
    rw [if_pos (Ne.symm hd)]
    rfl

theorem deletePair_ne_ub {t1 t2 : Tensor ν σ α} (h1 : WF t1) (h2 : WF t2) {c : ν × ν}
    (hc1 : c.1 ∈ t1.names) (hc2 : c.2 ∈ t2.names)
    (del : List (ν × List (σ × ℕ)) × List (ν × List (σ × ℕ))) :
    deletePair t1 t2 del c ≠ .ub := by
  unfold deletePair
  rw [edgeAt_eq h1.shaped hc1, edgeAt_eq h2.shaped hc2]
  dsimp only [Outcome.bind]
  cases ha : deleteUnused (edgeOf t1 c.1) (edgeOf t2 c.2) c.1 del.1 with
  | error m => intro h; cases h
  | ub => exact absurd ha (deleteUnused_ne_ub _ _ _ _)
  | ok d =>
    dsimp only [Outcome.bind]
    cases hb : deleteUnused (edgeOf t2 c.2) (edgeOf t1 c.1) c.2 del.2 with
    | error m => intro h; cases h
    | ub => exact absurd hb (deleteUnused_ne_ub _ _ _ _)
    | ok d => intro h; cases h

/-- A pair of edges that cannot be contracted: the arrows are equal or the dimensions of a symmetry
and its opposite differ. -/
def Unfit (t1 t2 : Tensor ν σ α) (c : ν × ν) : Prop :=
  (TatSym.isFermi σ = true ∧ (edgeOf t1 c.1).arrow = (edgeOf t2 c.2).arrow) ∨
  ∃ s d1 d2, OMap.find? (mapOf t1 c.1) s = some d1 ∧ OMap.find? (mapOf t2 c.2) (-s) = some d2 ∧
    d1 ≠ d2

theorem deletePair_unfit {t1 t2 : Tensor ν σ α} (h1 : WF t1) (h2 : WF t2) {c : ν × ν}
    (hc1 : c.1 ∈ t1.names) (hc2 : c.2 ∈ t2.names) (hu : Unfit t1 t2 c)
    (del : List (ν × List (σ × ℕ)) × List (ν × List (σ × ℕ))) :
    (deletePair t1 t2 del c).isError = true := by
  unfold deletePair
  rw [edgeAt_eq h1.shaped hc1, edgeAt_eq h2.shaped hc2]
  dsimp only [Outcome.bind]
  refine isError_bind _ ?_
  rcases hu with ⟨hf, ha⟩ | ⟨s, d1, d2, ha, hb, hd⟩
  · exact deleteUnused_arrow hf ha _ _
  · exact deleteUnused_dim ha hb hd _ _

theorem contractWithoutFuse_unfit [CommRing α] (g : Gemm α) (env1 env2 env3 : Env σ α)
    (junk : List σ → ℕ → α) (cn : ContractNames ν) {t1 t2 : Tensor ν σ α}
    (h1 : WF t1) (h2 : WF t2) {pairs : List (ν × ν)} {c : ν × ν} (hc : c ∈ pairs)
    (hc1 : c.1 ∈ t1.names) (hc2 : c.2 ∈ t2.names) (hu : Unfit t1 t2 c) :
    (contractWithoutFuse g env1 env2 env3 junk cn t1 t2 pairs).isError = true := by
  unfold contractWithoutFuse
  dsimp only
  split
  · rfl
  · rename_i hdup
    rw [Bool.not_eq_true] at hdup
    have hp := pairs_keep hdup
    have hperm := scheme_perm h1.nodup h2.nodup hp
      (t1.names.filter fun n => (findPair1 (keepPairs t1.names t2.names pairs) n).isNone)
      (t2.names.filter fun n => (findPair2 (keepPairs t1.names t2.names pairs) n).isNone)
    refine isError_bind _ (foldlM_isError (fun b c hc => ?_) ⟨c, ?_, ?_⟩ _)
    · have := hperm.mem_iff.1 hc
      exact deletePair_ne_ub h1 h2 (hp.sub1 _ this) (hp.sub2 _ this) b
    · exact hperm.mem_iff.2 (by simp [keepPairs, hc, hc1, hc2])
    · exact fun b => deletePair_unfit h1 h2 hc1 hc2 hu b

/-! ## equal names left -/

theorem mem_set_imp {κ β : Type} [LinearOrder κ] {m : List (κ × β)} {k : κ} {v : β} {x : κ × β}
    (h : x ∈ OMap.set m k v) : x = (k, v) ∨ x ∈ m := by
  induction m with
  | nil => left; simpa [OMap.set] using h
  | cons e m ih =>
    unfold OMap.set at h
    split at h
    · exact List.mem_cons.1 h
    · split at h
      · rcases List.mem_cons.1 h with h | h
        · exact .inl h
        · exact .inr (List.mem_cons_of_mem _ h)
      · rcases List.mem_cons.1 h with h | h
        · exact .inr (h ▸ List.mem_cons_self)
        · exact (ih h).imp id (List.mem_cons_of_mem _)

theorem restore_parts {t1 t2 : Tensor ν σ α} (h1 : WF t1) (h2 : WF t2) (cn : ContractNames ν)
    (G1 G2 : List ν) :
    ∀ x ∈ (restoreArgs cn t1 t2 G1 G2).split, ∀ y ∈ x.2, OMap.Sorted y.2 := by
  have hs : ∀ {t : Tensor ν σ α}, WF t → ∀ G, ∀ y ∈ splitParts G t, OMap.Sorted y.2 := by
    intro t ht G y hy
    unfold splitParts at hy
    obtain ⟨z, hz, rfl⟩ := List.mem_map.1 hy
    exact ht.sorted _ (List.of_mem_zip (List.mem_filter.1 hz).1).2
  intro x hx y hy
  have hx' : x ∈ OMap.set (OMap.set [] cn.c1 (splitParts G1 t1)) cn.c2 (splitParts G2 t2) := hx
  rcases mem_set_imp hx' with rfl | hx'
  · exact hs h2 _ _ hy
  · rcases mem_set_imp hx' with rfl | hx'
    · exact hs h1 _ _ hy
    · cases hx'

/-- Equal names left over: the last call of `edge_operator` throws. -/
theorem contractWithoutFuse_equal [CommRing α] {g : Gemm α} (hg : GemmOk g) (env1 env2 env3 : Env σ α)
    (junk : List σ → ℕ → α) {cn : ContractNames ν} (hcn : cn.c1 ≠ cn.c2) {t1 t2 : Tensor ν σ α}
    (h1 : WF t1) (h2 : WF t2) {pairs : List (ν × ν)}
    (hdup : duplicated (keepPairs t1.names t2.names pairs) = false)
    {cs : List (ν × ν)} (hcs : keepPairs t1.names t2.names pairs = cs)
    (hm : Matched t1 t2 cs)
    (hl : Separated t1 (cs.map Prod.fst) ∨ ∀ s : σ, -s = s)
    (hnd : ¬ (others t1.names (cs.map Prod.fst) ++ others t2.names (cs.map Prod.snd)).Nodup) :
    (contractWithoutFuse g env1 env2 env3 junk cn t1 t2 pairs).isError = true := by
  obtain ⟨hp0, co, hperm, right1, right2, S1, S2, F1, C1, F2, C2, m1, m2, r, hM, hF, hel, ha1, ha2,
    hr⟩ := contractWithoutFuse_steps hg env1 env2 env3 junk hcn h1.shaped h2.shaped hdup hcs hm hl
  rw [hr]
  refine edgeOperator_reject' env3 hF.wf (restore_parts h1 h2 cn _ _) ?_ (Or.inr (Or.inr ?_))
  · have : (restoreArgs cn t1 t2 (others t1.names (co.map Prod.fst))
        (others t2.names (co.map Prod.snd))).split.isEmpty = false := by
      have h : cn.c2 ∈ OMap.keys (restoreArgs cn t1 t2 (others t1.names (co.map Prod.fst))
        (others t2.names (co.map Prod.snd))).split := by
        change cn.c2 ∈ OMap.keys (OMap.set (OMap.set [] cn.c1 _) cn.c2 _)
        rw [OMap.mem_keys_set]
        exact .inl rfl
      cases hs : (restoreArgs cn t1 t2 (others t1.names (co.map Prod.fst))
        (others t2.names (co.map Prod.snd))).split with
      | nil => rw [hs] at h; cases h
      | cons x l => rfl
    unfold opShortcut
    rw [this]
    simp
  · change ¬ (others t1.names (co.map Prod.fst) ++ others t2.names (co.map Prod.snd)).Nodup
    rwa [others_congr (hperm.map Prod.fst), others_congr (hperm.map Prod.snd)]

theorem edgeOperator_ok_nodup [Neg α] [Zero α] {env : Env σ α} {t r : Tensor ν σ α}
    {a : EdgeArgs ν σ} (hs : a.split ≠ []) (h : edgeOperator env t a = .ok r) :
    a.newNames.Nodup := by
  unfold edgeOperator at h
  dsimp only at h
  rw [if_neg (by cases hss : a.split with
    | nil => exact absurd hss hs
    | cons x l => simp)] at h
  split at h
  · cases h
  · obtain ⟨d2s, -, h⟩ := bind_ok h
    obtain ⟨core, -, h⟩ := bind_ok h
    obtain ⟨u, hu, -⟩ := bind_ok h
    exact ((checkValidName_ok _ _).1 hu).2

theorem ofList_two_ne {κ β : Type} [LinearOrder κ] (x y : κ × β) : OMap.ofList [x, y] ≠ [] := by
  intro hxy
  have : y.1 ∈ OMap.keys (OMap.set (OMap.set [] x.1 x.2) y.1 y.2) := by
    rw [OMap.mem_keys_set]; exact .inl rfl
  rw [show OMap.set (OMap.set [] x.1 x.2) y.1 y.2 = OMap.ofList [x, y] from rfl, hxy] at this
  cases this

/-- A contraction that succeeds has no equal names left. -/
theorem contractWithoutFuse_nodup [CommRing α] {g : Gemm α} {env1 env2 env3 : Env σ α}
    {junk : List σ → ℕ → α} {cn : ContractNames ν} {t1 t2 r : Tensor ν σ α} {pairs : List (ν × ν)}
    (h : contractWithoutFuse g env1 env2 env3 junk cn t1 t2 pairs = .ok r) :
    (others t1.names ((keepPairs t1.names t2.names pairs).map Prod.fst) ++
      others t2.names ((keepPairs t1.names t2.names pairs).map Prod.snd)).Nodup := by
  unfold contractWithoutFuse at h
  dsimp only at h
  split at h
  · cases h
  · obtain ⟨d, -, h⟩ := bind_ok h
    obtain ⟨m1, -, h⟩ := bind_ok h
    obtain ⟨m2, -, h⟩ := bind_ok h
    obtain ⟨p, -, h⟩ := bind_ok h
    have := edgeOperator_ok_nodup (ofList_two_ne _ _) h
    rw [free1_eq, free2_eq] at this
    exact this

/-! ## sectors that do not match -/

theorem lookupDims_ok {edges : List (Edge σ)} {key : List σ} {d : List ℕ}
    (h : lookupDims edges key = .ok d) {i : ℕ} {e : Edge σ} (he : edges[i]? = some e) {s : σ}
    (hs : key[i]? = some s) : s ∈ OMap.keys e.map := by
  induction edges generalizing key d i with
  | nil => simp at he
  | cons e' es ih =>
    cases key with
    | nil => simp at hs
    | cons s' ss =>
      unfold lookupDims at h
      cases hf : OMap.find? e'.map s' with
      | none => rw [hf] at h; cases h
      | some v =>
        rw [hf] at h
        dsimp only at h
        cases hr : lookupDims es ss with
        | error m => rw [hr] at h; cases h
        | ub => rw [hr] at h; cases h
        | ok r =>
          cases i with
          | zero =>
            simp only [List.getElem?_cons_zero, Option.some.injEq] at he hs
            subst he hs
            rw [← OMap.find?_isSome, hf]; rfl
          | succ i =>
            simp only [List.getElem?_cons_succ] at he hs
            exact ih hr he hs

theorem foldlM_ok {f : β → γ → Outcome β} {l : List γ} {b r : β} (h : l.foldlM f b = .ok r) {c : γ}
    (hc : c ∈ l) : ∃ b' b'', f b' c = .ok b'' := by
  induction l generalizing b with
  | nil => cases hc
  | cons x l ih =>
    rw [List.foldlM_cons] at h
    cases hx : f b x with
    | error m => rw [hx] at h; cases h
    | ub => rw [hx] at h; cases h
    | ok v =>
      rw [hx] at h
      rcases List.mem_cons.1 hc with rfl | hc
      · exact ⟨b, v, hx⟩
      · exact ih h hc

/-- `edge_operator` without splitting and reversing fails if a block has a symmetry which is cut
away. -/
theorem edgeOperator_cut [Neg α] [Zero α] (env : Env σ α) {t : Tensor ν σ α} {a : EdgeArgs ν σ}
    (hf : TatSym.isFermi σ = true → a.reversed = []) (hr : a.rename = []) (hs : a.split = [])
    (hm : a.merge ≠ []) {i : ℕ} {n : ν} {e : Edge σ} (hn : t.names[i]? = some n) (he : t.core.edges[i]? = some e)
    {c : List (σ × ℕ)} (hc : OMap.find? a.cut n = some c) {s : σ} (h0 : OMap.find? c s = some 0)
    {k : List σ} (hk : k ∈ OMap.keys t.core.blocks) (hks : k[i]? = some s) (r : Tensor ν σ α) :
    edgeOperator env t a ≠ .ok r := by
  intro h
  unfold edgeOperator at h
  dsimp only at h
  rw [if_neg (by cases hmm : a.merge with
    | nil => exact absurd hmm hm
    | cons x l => simp)] at h
  split at h
  · cases h
  · have hrev : (TatSym.isFermi σ && !a.reversed.isEmpty) = false := by
      cases hfe : TatSym.isFermi σ with
      | false => rfl
      | true => rw [hf hfe]; rfl
    obtain ⟨d2s, -, h⟩ := bind_ok h
    obtain ⟨core, -, h⟩ := bind_ok h
    obtain ⟨-, -, h⟩ := bind_ok h
    obtain ⟨blocks, h, -⟩ := bind_ok h
    rw [if_neg (c := (!a.split.isEmpty || TatSym.isFermi σ && !a.reversed.isEmpty) = true)
      (by rw [hs, hrev]; simp)] at h
    have hmem : ((k, (k, List.replicate t.names.length 0)) : List σ × (List σ × List ℕ)) ∈
        locateBlocks t.names.length t.core.blocks := by
      apply OMap.mem_of_find?
      unfold locateBlocks
      rw [(locateBlocks_fold _ _ [] List.Pairwise.nil).2 k, if_pos hk]
    obtain ⟨b', b'', hb⟩ := foldlM_ok h hmem
    unfold copyBlock at hb
    dsimp only at hb
    obtain ⟨d, hd, -⟩ := bind_ok hb
    have hcut : a.cut.isEmpty = false := by
      cases hcc : a.cut with
      | nil => rw [hcc] at hc; cases hc
      | cons x l => rfl
    have hE : reverseEdges a.reversed
        (splitStage a.split (nameBeforeSplit a.rename t.names)
          (edgeBeforeSplit a.cut t.names t.core.edges)).names
        (splitStage a.split (nameBeforeSplit a.rename t.names)
          (edgeBeforeSplit a.cut t.names t.core.edges)).edges =
        List.zipWith (cutEdge a.cut) t.names t.core.edges := by
      unfold reverseEdges splitStage edgeBeforeSplit
      rw [hrev]
      simp [hs, hcut]
    rw [hE] at hd
    have := lookupDims_ok hd (i := i) (e := cutEdge a.cut n e) (by
      rw [List.getElem?_zipWith, hn, he]) hks
    unfold cutEdge at this
    rw [hc] at this
    have key : ∀ (l acc : List (σ × ℕ)), s ∉ OMap.keys acc →
        s ∉ OMap.keys (l.foldl (cutStep c) acc) := by
      intro l
      induction l with
      | nil => intro acc h; exact h
      | cons x l ih =>
        intro acc hacc
        rw [List.foldl_cons]
        apply ih
        unfold cutStep
        by_cases hx : x.1 = s
        · rw [hx, h0]
          simpa using hacc
        · split
          · split
            · rw [OMap.mem_keys_set]; push Not; exact ⟨Ne.symm hx, hacc⟩
            · exact hacc
          · rw [OMap.mem_keys_set]; push Not; exact ⟨Ne.symm hx, hacc⟩
    exact key e.map [] (by simp [OMap.keys]) this

theorem deleteUnused_missing {this other : Edge σ} {name : ν} {del d : List (ν × List (σ × ℕ))}
    (h : deleteUnused this other name del = .ok d) :
    (∀ n, n ≠ name → OMap.find? d n = OMap.find? del n) ∧
    ∀ s ∈ OMap.keys this.map, OMap.find? other.map (-s) = none →
      ∃ c, OMap.find? d name = some c ∧ OMap.find? c s = some 0 := by
  unfold deleteUnused at h
  split at h
  · cases h
  · obtain ⟨m, hm, h⟩ := bind_ok h
    cases h
    have key : ∀ (l acc m : List (σ × ℕ)), l.foldlM (deleteStep other) acc = .ok m → ∀ s,
        OMap.find? other.map (-s) = none →
        (s ∈ OMap.keys l ∨ OMap.find? acc s = some 0) → OMap.find? m s = some 0 := by
      intro l
      induction l with
      | nil =>
        intro acc m hm s _ hs
        cases hm
        rcases hs with hs | hs
        · cases hs
        · exact hs
      | cons x l ih =>
        intro acc m hm s hns hs
        rw [List.foldlM_cons] at hm
        obtain ⟨v, hv, hm⟩ := bind_ok (f := deleteStep other acc x) hm
        refine ih v m hm s hns ?_
        unfold deleteStep at hv
        by_cases hx : x.1 = s
        · rw [hx, hns] at hv
          cases hv
          right
          rw [OMap.find?_set, if_pos rfl]
        · have hacc : OMap.find? acc s = some 0 → OMap.find? v s = some 0 := by
            intro ha
            split at hv
            · split at hv
              · cases hv
              · cases hv; exact ha
            · cases hv
              rw [OMap.find?_set, if_neg (Ne.symm hx)]
              exact ha
          rcases hs with hs | hs
          · left
            have : s = x.1 ∨ s ∈ OMap.keys l := by simpa [OMap.keys] using hs
            exact this.resolve_left (Ne.symm hx)
          · exact .inr (hacc hs)
    refine ⟨fun n hn => ?_, fun s hs hns => ?_⟩
    · split
      · rfl
      · rw [OMap.find?_set, if_neg hn]
    · have h0 := key _ _ _ hm s hns (.inl hs)
      refine ⟨m, ?_, h0⟩
      rw [if_neg (by
        cases m with
        | nil => cases h0
        | cons x l => simp), OMap.find?_set, if_pos rfl]

theorem keys_of_block {t : Tensor ν σ α} (h : WF t) {p : ν → σ × ℕ}
    (hp : keyOf t.names p ∈ OMap.keys t.core.blocks) {n : ν} (hn : n ∈ t.names) :
    (p n).1 ∈ OMap.keys (mapOf t n) := by
  have := (h.mem_keys.1 hp).1
  rw [edges_named h] at this
  unfold keyOf at this
  rw [List.forall₂_map_left_iff, List.forall₂_map_right_iff, List.forall₂_same] at this
  exact this n hn

theorem deletePairs_missing {t1 t2 : Tensor ν σ α} (h1 : WF t1) (h2 : WF t2) {co : List (ν × ν)}
    (hp : Pairs t1.names t2.names co) {del d : List (ν × List (σ × ℕ)) × List (ν × List (σ × ℕ))}
    (h : co.foldlM (deletePair t1 t2) del = .ok d) :
    ((∀ n, n ∉ co.map Prod.fst → OMap.find? d.1 n = OMap.find? del.1 n) ∧
      (∀ n, n ∉ co.map Prod.snd → OMap.find? d.2 n = OMap.find? del.2 n)) ∧
    ∀ c ∈ co,
      (∀ s ∈ OMap.keys (mapOf t1 c.1), OMap.find? (mapOf t2 c.2) (-s) = none →
        ∃ m, OMap.find? d.1 c.1 = some m ∧ OMap.find? m s = some 0) ∧
      (∀ s ∈ OMap.keys (mapOf t2 c.2), OMap.find? (mapOf t1 c.1) (-s) = none →
        ∃ m, OMap.find? d.2 c.2 = some m ∧ OMap.find? m s = some 0) := by
  induction co generalizing del with
  | nil => cases h; simp
  | cons c co ih =>
    rw [List.foldlM_cons] at h
    obtain ⟨v, hv, h⟩ := bind_ok (f := deletePair t1 t2 del c) h
    have hp' : Pairs t1.names t2.names co := {
      nodup1 := (List.nodup_cons.1 hp.nodup1).2
      nodup2 := (List.nodup_cons.1 hp.nodup2).2
      sub1 := fun c hc => hp.sub1 c (List.mem_cons_of_mem _ hc)
      sub2 := fun c hc => hp.sub2 c (List.mem_cons_of_mem _ hc) }
    obtain ⟨⟨k1, k2⟩, k3⟩ := ih hp' h
    unfold deletePair at hv
    rw [edgeAt_eq h1.shaped (hp.sub1 c List.mem_cons_self), edgeAt_eq h2.shaped (hp.sub2 c List.mem_cons_self)] at hv
    dsimp only [Outcome.bind] at hv
    obtain ⟨d1, e1, hv⟩ := bind_ok hv
    obtain ⟨d2, e2, hv⟩ := bind_ok hv
    cases hv
    obtain ⟨a1, b1⟩ := deleteUnused_missing e1
    obtain ⟨a2, b2⟩ := deleteUnused_missing e2
    have n1 : c.1 ∉ co.map Prod.fst := (List.nodup_cons.1 hp.nodup1).1
    have n2 : c.2 ∉ co.map Prod.snd := (List.nodup_cons.1 hp.nodup2).1
    refine ⟨⟨fun n hn => ?_, fun n hn => ?_⟩, fun x hx => ?_⟩
    · rw [List.map_cons, List.mem_cons] at hn
      push Not at hn
      rw [k1 n hn.2, a1 n hn.1]
    · rw [List.map_cons, List.mem_cons] at hn
      push Not at hn
      rw [k2 n hn.2, a2 n hn.1]
    · rcases List.mem_cons.1 hx with rfl | hx
      · refine ⟨fun s hs hns => ?_, fun s hs hns => ?_⟩
        · rw [k1 _ n1]; exact b1 s hs hns
        · rw [k2 _ n2]; exact b2 s hs hns
      · exact k3 x hx

/-- Contraction fails if an edge has a symmetry in a block whose opposite the other edge lacks and no
edge of the tensor has to be reversed. -/
theorem contractWithoutFuse_missing [CommRing α] (g : Gemm α) (env1 env2 env3 : Env σ α)
    (junk : List σ → ℕ → α) (cn : ContractNames ν) {t1 t2 : Tensor ν σ α}
    (h1 : WF t1) (h2 : WF t2) {pairs : List (ν × ν)} {c : ν × ν}
    (hc : c ∈ pairs) (hc1 : c.1 ∈ t1.names) (hc2 : c.2 ∈ t2.names)
    (hmis : ((∃ p : ν → σ × ℕ, keyOf t1.names p ∈ OMap.keys t1.core.blocks ∧
        -(p c.1).1 ∉ OMap.keys (mapOf t2 c.2)) ∧ (TatSym.isFermi σ = true → reversedNames
          (others t1.names ((keepPairs t1.names t2.names pairs).map Prod.fst)) false t1 = [])) ∨
      ((∃ p : ν → σ × ℕ, keyOf t2.names p ∈ OMap.keys t2.core.blocks ∧
        -(p c.2).1 ∉ OMap.keys (mapOf t1 c.1)) ∧ (TatSym.isFermi σ = true → reversedNames
          (others t2.names ((keepPairs t1.names t2.names pairs).map Prod.snd)) true t2 = [])))
    (r : Tensor ν σ α) :
    contractWithoutFuse g env1 env2 env3 junk cn t1 t2 pairs ≠ .ok r := by
  intro h
  unfold contractWithoutFuse at h
  dsimp only at h
  split at h
  · cases h
  · rename_i hdup
    rw [Bool.not_eq_true] at hdup
    have hp := pairs_keep hdup
    have hperm := scheme_perm h1.nodup h2.nodup hp
      (t1.names.filter fun n => (findPair1 (keepPairs t1.names t2.names pairs) n).isNone)
      (t2.names.filter fun n => (findPair2 (keepPairs t1.names t2.names pairs) n).isNone)
    obtain ⟨d, hd, h⟩ := bind_ok h
    obtain ⟨m1, hm1, h⟩ := bind_ok h
    obtain ⟨m2, hm2, h⟩ := bind_ok h
    have hco := hperm.mem_iff.2 (show c ∈ keepPairs t1.names t2.names pairs by
      simp [keepPairs, hc, hc1, hc2])
    obtain ⟨-, k⟩ := deletePairs_missing h1 h2 (hp.perm hperm) hd
    obtain ⟨k1, k2⟩ := k c hco
    have fail : ∀ {t : Tensor ν σ α} (_ : WF t) (env : Env σ α) (a : EdgeArgs ν σ) (m : Tensor ν σ α),
        (TatSym.isFermi σ = true → a.reversed = []) → a.rename = [] → a.split = [] → a.merge ≠ [] →
        ∀ (n : ν), n ∈ t.names → ∀ p : ν → σ × ℕ, keyOf t.names p ∈ OMap.keys t.core.blocks →
        (∃ m, OMap.find? a.cut n = some m ∧ OMap.find? m (p n).1 = some 0) →
        edgeOperator env t a ≠ .ok m := by
      rintro t ht env a m hf ha hb hc n hn p hp ⟨cut, hcut, h0⟩
      obtain ⟨i, hi, rfl⟩ := List.mem_iff_getElem.1 hn
      exact edgeOperator_cut env hf ha hb hc (i := i) (List.getElem?_eq_getElem hi)
        (List.getElem?_eq_getElem (by rw [← ht.rank]; exact hi)) hcut h0 hp
        (by simp [keyOf, hi]) m
    rw [← free1_eq, ← free2_eq] at hmis
    rcases hmis with ⟨⟨p, hp1, hp2⟩, hr⟩ | ⟨⟨p, hp1, hp2⟩, hr⟩
    · refine fail h1 env1 _ m1 hr rfl rfl (ofList_two_ne _ _) c.1 hc1 p hp1 (k1 _ ?_ ?_) hm1
      · exact keys_of_block h1 hp1 hc1
      · exact OMap.find?_eq_none.2 hp2
    · refine fail h2 env2 _ m2 hr rfl rfl (ofList_two_ne _ _) c.2 hc2 p hp1 (k2 _ ?_ ?_) hm2
      · exact keys_of_block h2 hp1 hc2
      · exact OMap.find?_eq_none.2 hp2

end

end TAT
