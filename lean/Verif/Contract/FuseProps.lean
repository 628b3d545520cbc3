import Verif.Contract.Ident
import Verif.Contract.Props
import Verif.TensorMisc.Props

/-!
# Properties of contraction without symmetry, and of contraction with an identity

C27, and the part of C37 about contraction.
-/

namespace TAT

variable {ν σ α : Type}

section
variable [LinearOrder ν] [TatSym σ]

/-- The names of both tensors that are contracted in neither. -/
def sharedNames (t1 t2 : Tensor ν σ α) (cs : List (ν × ν)) : List ν :=
  t1.names.filter fun n => decide (n ∈ t2.names ∧ n ∉ cs.map Prod.fst ∧ n ∉ cs.map Prod.snd)

/-- **C27**: contraction of tensors without symmetry whose contracted and shared edges have equal
dimensions.  The names are the shared ones in ascending order, then the remaining ones of the first
tensor, then those of the second, each with its edge; the elements are the sums over the contracted
indices of the products of the elements of the two tensors, a shared edge has the same index in
both. -/
theorem C27_contract [CommRing α] (ce : ContractEnv σ α) (hg : GemmOk ce.gemm)
    {cn : ContractNames ν} (hcn : [cn.c0, cn.c1, cn.c2].Nodup) (hns : TatSym.isNoSym σ = true)
    {t1 t2 : Tensor ν σ α} (h1 : WF t1) (h2 : WF t2) (hb1 : t1.core.blocks ≠ [])
    (hb2 : t2.core.blocks ≠ []) {pairs cs : List (ν × ν)} (hcs : knownPairs t1 t2 pairs = cs)
    (hp1 : (cs.map Prod.fst).Nodup) (hp2 : (cs.map Prod.snd).Nodup)
    (hm : ∀ c ∈ cs, mapOf t1 c.1 = mapOf t2 c.2)
    (hfm : ∀ n ∈ sharedNames t1 t2 cs, mapOf t1 n = mapOf t2 n) :
    ∃ r shared, contract ce cn t1 t2 pairs = .ok r ∧ WF r ∧
      shared.Perm (sharedNames t1 t2 cs) ∧ shared.Pairwise (· < ·) ∧
      r.names = shared ++
        (others t1.names (cs.map Prod.fst)).filter (fun n => decide (n ∉ shared)) ++
        (others t2.names (cs.map Prod.snd)).filter (fun n => decide (n ∉ shared)) ∧
      (∀ n ∈ r.names, edgeOf r n =
        if n ∈ others t1.names (cs.map Prod.fst) then edgeOf t1 n else edgeOf t2 n) ∧
      ∀ p, ValidPos r p → elem r p = some (sumOver (fun n => edgePositions (mapOf t1 n))
        (fun w => amp t1 w * amp t2 (partner cs p w)) (cs.map Prod.fst) p) := by
  rw [← knownPairs_eq] at hcs
  have hF : ∀ n, n ∈ sharedNames t1 t2 cs ↔ n ∈ fuseNames cs t1.names t2.names := by
    intro n
    unfold sharedNames
    rw [List.mem_filter, mem_fuseNames]
    simp
  obtain ⟨r, e1, e2, e3, e4, e5⟩ := contractWithFuse_spec hg hns ce.env1 ce.env2 ce.junk ce.junk' hcn
    h1 h2 hb1 hb2 (pairs := pairs) (by rw [hcs]; exact (duplicated_iff _).2 ⟨hp1, hp2⟩) hcs
    ⟨fun hf => by rw [TatSym.noSym_bose hns] at hf; simp at hf, fun c hc s => by
      rw [hm c hc, sym_zero hns (-s), sym_zero hns s]⟩ (fun n hn => hfm n ((hF n).2 hn))
  refine ⟨r, fuseNames cs t1.names t2.names, by unfold contract; rw [hns, if_pos rfl]; exact e1, e3,
    (List.perm_ext_iff_of_nodup (fuseNames_nodup _ _ _) (h1.nodup.filter _)).2 fun n => (hF n).symm,
    fuseNames_sorted _ _ _, ?_, fun n hn => edgeOf_unique e3 e4 n hn, fun p hv => ?_⟩
  · rw [e2]
    unfold kept others
    rw [List.filter_filter, List.filter_filter]
    congr 1
    · congr 1
      exact List.filter_congr fun n _ => by
        rw [Bool.and_comm, ← decide_not]
    · exact List.filter_congr fun n _ => by
        rw [Bool.and_comm, ← decide_not]
  · rw [e5 p hv]
    unfold contracted
    simp only [contractSign_bose (TatSym.noSym_bose hns), one_smul]

/-- **C27**: shared edges of different dimensions are rejected. -/
theorem C27_shared_dimensions [CommRing α] (ce : ContractEnv σ α) (cn : ContractNames ν)
    (hns : TatSym.isNoSym σ = true) {t1 t2 : Tensor ν σ α} (h1 : WF t1) (h2 : WF t2)
    {pairs : List (ν × ν)} {n : ν}
    (hn : n ∈ sharedNames t1 t2 (knownPairs t1 t2 pairs)) (hne : mapOf t1 n ≠ mapOf t2 n) :
    (contract ce cn t1 t2 pairs).isError = true := by
  unfold contract
  rw [hns, if_pos rfl]
  unfold contractWithFuse
  dsimp only
  rw [knownPairs_eq]
  split
  · rfl
  · have hn' : n ∈ fuseNames (knownPairs t1 t2 pairs) t1.names t2.names := by
      unfold sharedNames at hn
      rw [List.mem_filter] at hn
      rw [mem_fuseNames]
      simpa using hn
    have : ∀ l : List ν, (∀ m ∈ l, m ∈ t1.names ∧ m ∈ t2.names) → n ∈ l →
        (l.mapM (fuseEdge t1 t2)).isError = true := by
      intro l
      induction l with
      | nil => intro _ h; simp at h
      | cons m l ih =>
        intro hl hn
        obtain ⟨a, b⟩ := hl m (by simp)
        have hfe : fuseEdge t1 t2 m = if edgeEq (edgeOf t1 m) (edgeOf t2 m) = true then
            .ok (edgeOf t1 m) else .error "Cannot fuse two edge with different shape" := by
          unfold fuseEdge
          rw [edgeAt_eq h1.shaped a, edgeAt_eq h2.shaped b]
          rfl
        rw [List.mapM_cons, hfe]
        by_cases he : edgeEq (edgeOf t1 m) (edgeOf t2 m) = true
        · rw [if_pos he]
          have hnm : n ∈ l := by
            rcases List.mem_cons.1 hn with rfl | h
            · exact absurd ((edgeEq_iff _ _).1 he).1 hne
            · exact h
          have ih' := ih (fun x hx => hl x (by simp [hx])) hnm
          cases hmm : l.mapM (fuseEdge t1 t2) with
          | ok _ => rw [hmm] at ih'; cases ih'
          | error _ => rfl
          | ub => rw [hmm] at ih'; cases ih'
        · rw [if_neg he]; rfl
    exact isError_bind _ (this _ (fun m hm => ⟨(mem_fuseNames.1 hm).1, (mem_fuseNames.1 hm).2.1⟩) hn')

/-- **C37** (contraction): contracting edges of a tensor with one side of an identity tensor gives the
tensor with the edges of the other side in their place, and nothing else, apart from the fermionic
sign of the contraction.  `i` is the identity: it has the elements `C37_identity_partial` gives. -/
theorem C37_contract [CommRing α] (ce : ContractEnv σ α) (hg : GemmOk ce.gemm)
    {cn : ContractNames ν} (hcn : [cn.c0, cn.c1, cn.c2].Nodup)
    {t i : Tensor ν σ α} (h : WF t) (hi : WF i)
    {links : List (Link ν)} (hn : (links.map Link.n).Nodup)
    (hnt : ∀ x ∈ links, x.n ∈ t.names)
    (hab : i.names.Perm (links.map Link.a ++ links.map Link.b))
    (hm : Matched t i (links.map fun x => (x.n, x.a)))
    (hpm : ∀ x ∈ links, ∀ s, dimM (mapOf i x.a) s = dimM (mapOf i x.b) (-s))
    (hel : ∀ p, ValidPos i p → elem i p = some (if OnDiagonal links p then 1 else 0))
    (hl : Separated t (links.map Link.n) ∨ ∀ s : σ, -s = s)
    (hnd : ∀ x ∈ links, x.b ∉ others t.names (links.map Link.n))
    (hb : t.core.blocks ≠ []) (hbi : i.core.blocks ≠ []) :
    ∃ r, contract ce cn t i (links.map fun x => (x.n, x.a)) = .ok r ∧ WF r ∧
      r.names = others t.names (links.map Link.n) ++ others i.names (links.map Link.a) ∧
      ∀ p, ValidPos r p → ∃ v, elem t (relink links p) = some v ∧ elem r p =
        some (contractSign t i (links.map fun x => (x.n, x.a)) (relink links p)
          (partner (links.map fun x => (x.n, x.a)) p (relink links p)) • v) := by
  set cs := links.map fun x => (x.n, x.a) with hcs
  have c1 : cs.map Prod.fst = links.map Link.n := by rw [hcs, List.map_map]; rfl
  have c2 : cs.map Prod.snd = links.map Link.a := by rw [hcs, List.map_map]; rfl
  have habn := hab.nodup_iff.1 hi.nodup
  rw [List.nodup_append] at habn
  have hsub : ∀ x ∈ links, x.a ∈ i.names ∧ x.b ∈ i.names := fun x hx =>
    ⟨hab.mem_iff.2 (List.mem_append_left _ (List.mem_map_of_mem hx)),
      hab.mem_iff.2 (List.mem_append_right _ (List.mem_map_of_mem hx))⟩
  have hp : Pairs t.names i.names cs := ⟨by rw [c1]; exact hn, by rw [c2]; exact habn.1,
    fun c hc => by
      obtain ⟨x, hx, rfl⟩ := List.mem_map.1 hc
      exact hnt x hx,
    fun c hc => by
      obtain ⟨x, hx, rfl⟩ := List.mem_map.1 hc
      exact (hsub x hx).1⟩
  have mo : ∀ n, n ∈ others i.names (cs.map Prod.snd) ↔ n ∈ links.map Link.b := by
    intro n
    rw [mem_others, hab.mem_iff, List.mem_append, c2]
    constructor
    · rintro ⟨ha | ha, hc⟩
      · exact absurd ha hc
      · exact ha
    · intro hb
      exact ⟨Or.inr hb, fun hc => habn.2.2 _ hc _ hb rfl⟩
  have hndp : (others t.names (cs.map Prod.fst) ++ others i.names (cs.map Prod.snd)).Nodup := by
    rw [List.nodup_append]
    refine ⟨h.nodup.filter _, hi.nodup.filter _, ?_⟩
    rintro x hx y hy rfl
    rw [mo] at hy
    obtain ⟨z, hz, rfl⟩ := List.mem_map.1 hy
    rw [c1] at hx
    exact hnd z hz hx
  have hkn : knownPairs t i cs = cs := by
    unfold knownPairs
    rw [List.filter_eq_self]
    intro c hc
    exact decide_eq_true ⟨hp.sub1 c hc, hp.sub2 c hc⟩
  have hlen : Separated t (cs.map Prod.fst) ∨ ∀ s : σ, -s = s := by rwa [c1]
  have key : ∃ r, contract ce cn t i cs = .ok r ∧ WF r ∧
      r.names = others t.names (cs.map Prod.fst) ++ others i.names (cs.map Prod.snd) ∧
      (∀ n ∈ r.names, ∀ s, dimM (mapOf r n) s ≤ dimM (outerEdge t i cs n).map s) ∧
      ∀ p, ValidPos r p → elem r p = some (contracted t i cs p) := by
    by_cases hns : TatSym.isNoSym σ = true
    · have hfe : fuseNames cs t.names i.names = [] := by
        rw [List.eq_nil_iff_forall_not_mem]
        intro n hn'
        rw [mem_fuseNames] at hn'
        rw [List.nodup_append] at hndp
        exact hndp.2.2 n (mem_others.2 ⟨hn'.1, hn'.2.2.1⟩) n (mem_others.2 ⟨hn'.2.1, hn'.2.2.2⟩) rfl
      have hkeep : keepPairs t.names i.names cs = cs := by rw [knownPairs_eq]; exact hkn
      obtain ⟨r, e1, e2, e3, e4, e5⟩ := contractWithFuse_spec hg hns ce.env1 ce.env2 ce.junk ce.junk'
        hcn h hi hb hbi (pairs := cs)
        (by rw [hkeep]; exact (duplicated_iff _).2 ⟨hp.nodup1, hp.nodup2⟩) hkeep hm
        (by rw [hfe]; simp)
      refine ⟨r, by unfold contract; rw [hns, if_pos rfl]; exact e1, e3, ?_, fun n hn s => ?_, e5⟩
      · rw [e2, hfe]
        unfold kept others
        rw [List.nil_append]
        congr 1 <;> exact List.filter_congr fun n _ => by simp
      · unfold mapOf
        rw [edgeOf_unique e3 e4 n hn]
    · rw [Bool.not_eq_true] at hns
      have hcn' : cn.c1 ≠ cn.c2 := by
        simp only [List.nodup_cons, List.mem_cons, List.not_mem_nil, or_false] at hcn
        exact hcn.2.1
      obtain ⟨r, e1, e2, e3, ⟨e, e4, e4'⟩, e5⟩ := C28_contract_partial ce hg hcn' hns h hi hkn
        hp.nodup1 hp.nodup2 hm hlen hndp (Or.inr hb)
      have hsortE : ∀ n ∈ r.names, OMap.Sorted (e n).map := by
        intro n hn
        rw [(e4' n hn).1]
        rw [e2] at hn
        unfold outerEdge
        split
        · rename_i hh
          exact mapOf_sorted h n (mem_others.1 hh).1
        · rename_i hh
          rcases List.mem_append.1 hn with hn | hn
          · exact absurd hn hh
          · exact mapOf_sorted hi n (mem_others.1 hn).1
      have hdim : ∀ n ∈ r.names, ∀ s, dimM (mapOf r n) s ≤ dimM (outerEdge t i cs n).map s := by
        intro n hn s
        rw [← (e4' n hn).1]
        obtain ⟨j, hj, rfl⟩ := List.mem_iff_getElem.1 hn
        have hj' : j < (prunedEdges (r.names.map e)).length := by
          rw [pruned_length, List.length_map]; exact hj
        have hmj : mapOf r r.names[j] = (prunedEdges (r.names.map e))[j].map := by
          have h1 := maps_named e3
          have h2 : (r.names.map (mapOf r))[j]? = (r.core.edges.map Edge.map)[j]? := by rw [h1]
          rw [List.getElem?_map, List.getElem?_map, e4, List.getElem?_eq_getElem hj,
            List.getElem?_eq_getElem hj'] at h2
          simpa using h2
        rw [hmj]
        by_cases hk : s ∈ OMap.keys (prunedEdges (r.names.map e))[j].map
        · have := dims_pruned (edges := r.names.map e) (by
            intro x hx
            obtain ⟨n, hn, rfl⟩ := List.mem_map.1 hx
            exact hsortE n hn) hj' hk
          unfold dimOf at this
          unfold dimM
          rw [this, List.getElem_map]
        · unfold dimM
          rw [OMap.find?_eq_none.2 hk]
          exact Nat.zero_le _
      refine ⟨r, e1, e3, e2, hdim, fun p hv => e5 p ?_⟩
      have hv' := (validPos_iff e3).1 hv
      exact ⟨fun n hn => lt_of_lt_of_le (hv'.1 n hn) (hdim n hn _), hv'.2⟩
  obtain ⟨r, e1, e2, e3, e4, e5⟩ := key
  refine ⟨r, e1, e2, by rw [e3, c1, c2], fun p hv => ?_⟩
  have hv' := (validPos_iff e2).1 hv
  have outB : ∀ x ∈ links, outerEdge t i cs x.b = edgeOf i x.b := by
    intro x hx
    unfold outerEdge
    rw [c1, if_neg (hnd x hx)]
  have inB : ∀ x ∈ links, x.b ∈ r.names := by
    intro x hx
    rw [e3]
    exact List.mem_append_right _ ((mo _).2 (List.mem_map_of_mem hx))
  have hvb : ∀ x ∈ links, (p x.b).2 < dimM (mapOf i x.b) (p x.b).1 := by
    intro x hx
    have := lt_of_lt_of_le (hv'.1 x.b (inB x hx)) (e4 x.b (inB x hx) _)
    rwa [outB x hx] at this
  have hvt : ValidPos t (relink links p) := by
    rw [validPos_iff h]
    refine ⟨fun n hn' => ?_, ?_⟩
    · by_cases hl' : n ∈ links.map Link.n
      · obtain ⟨x, hx, rfl⟩ := List.mem_map.1 hl'
        rw [relink_mem hn p hx]
        have h1 := hm.maps (x.n, x.a) (List.mem_map.2 ⟨x, hx, rfl⟩) (p x.b).1
        have h2 := hpm x hx (-(p x.b).1)
        rw [neg_neg] at h2
        have h3 := hvb x hx
        rw [← h2] at h3
        unfold dimM at h3 ⊢
        rwa [h1]
      · rw [relink_not p hl']
        have hmem : n ∈ others t.names (cs.map Prod.fst) := mem_others.2 ⟨hn', by rwa [c1]⟩
        have hr : n ∈ r.names := by rw [e3]; exact List.mem_append_left _ hmem
        have := lt_of_lt_of_le (hv'.1 n hr) (e4 n hr _)
        unfold outerEdge at this
        rwa [if_pos hmem] at this
    · have hs := hv'.2
      rw [e3, keyOf_append, List.sum_append] at hs
      have hperm : t.names.Perm (others t.names (cs.map Prod.fst) ++ cs.map Prod.fst) :=
        hp.split1 h.nodup
      have e1 : (keyOf t.names (relink links p)).sum =
          (keyOf (others t.names (cs.map Prod.fst) ++ cs.map Prod.fst) (relink links p)).sum :=
        (hperm.map _).sum_eq
      rw [e1, keyOf_append, List.sum_append]
      have e2 : keyOf (others t.names (cs.map Prod.fst)) (relink links p) =
          keyOf (others t.names (cs.map Prod.fst)) p :=
        List.map_congr_left fun n hn' => by
          rw [relink_not p (by rw [← c1]; exact (mem_others.1 hn').2)]
      have e3 : keyOf (cs.map Prod.fst) (relink links p) = keyOf (links.map Link.b) p := by
        rw [c1]
        unfold keyOf
        rw [List.map_map, List.map_map]
        exact List.map_congr_left fun x hx => by
          simp only [Function.comp]
          rw [relink_mem hn p hx]
      have e4 : (keyOf (others i.names (cs.map Prod.snd)) p).sum = (keyOf (links.map Link.b) p).sum :=
        (((List.perm_ext_iff_of_nodup (hi.nodup.filter _) habn.2.1).2 mo).map _).sum_eq
      rw [e2, e3, ← e4]
      exact hs
  refine ⟨amp t (relink links p), amp_valid h hvt, ?_⟩
  rw [e5 p hv, contracted_identity h hi hn hab hp hm hpm hel hvb]

/-- **C37** (contraction): without fermions the result is the tensor itself, edges renamed. -/
theorem C37_contract_bosonic [CommRing α] (ce : ContractEnv σ α) (hg : GemmOk ce.gemm)
    {cn : ContractNames ν} (hcn : [cn.c0, cn.c1, cn.c2].Nodup) (hf : TatSym.isFermi σ = false)
    {t i : Tensor ν σ α} (h : WF t) (hi : WF i)
    {links : List (Link ν)} (hn : (links.map Link.n).Nodup)
    (hnt : ∀ x ∈ links, x.n ∈ t.names)
    (hab : i.names.Perm (links.map Link.a ++ links.map Link.b))
    (hm : Matched t i (links.map fun x => (x.n, x.a)))
    (hpm : ∀ x ∈ links, ∀ s, dimM (mapOf i x.a) s = dimM (mapOf i x.b) (-s))
    (hel : ∀ p, ValidPos i p → elem i p = some (if OnDiagonal links p then 1 else 0))
    (hl : Separated t (links.map Link.n) ∨ ∀ s : σ, -s = s)
    (hnd : ∀ x ∈ links, x.b ∉ others t.names (links.map Link.n))
    (hb : t.core.blocks ≠ []) (hbi : i.core.blocks ≠ []) :
    ∃ r, contract ce cn t i (links.map fun x => (x.n, x.a)) = .ok r ∧ WF r ∧
      r.names = others t.names (links.map Link.n) ++ others i.names (links.map Link.a) ∧
      ∀ p, ValidPos r p → elem r p = elem t (relink links p) := by
  obtain ⟨r, e1, e2, e3, e4⟩ := C37_contract ce hg hcn h hi hn hnt hab hm hpm hel hl hnd hb hbi
  refine ⟨r, e1, e2, e3, fun p hv => ?_⟩
  obtain ⟨v, h1, h2⟩ := e4 p hv
  rw [h2, h1, contractSign_bose hf, one_smul]

/-- **C37**: `identity` followed by `contract`, without fermions: for one link, without symmetry for
any number of them, `PairOpposite` holds by `C37_matrix` and `C37_noSymmetry`. -/
theorem C37_identity_contract [CommRing α] (ce : ContractEnv σ α) (hg : GemmOk ce.gemm)
    {cn : ContractNames ν} (hcn : [cn.c0, cn.c1, cn.c2].Nodup) (hf : TatSym.isFermi σ = false)
    (junk : List σ → ℕ → α) {t i : Tensor ν σ α} (h : WF t) (hi : WF i)
    {links : List (Link ν)} (hn : (links.map Link.n).Nodup)
    (hnt : ∀ x ∈ links, x.n ∈ t.names)
    (hab : i.names.Perm (links.map Link.a ++ links.map Link.b)) (hne : links ≠ [])
    (hm : Matched t i (links.map fun x => (x.n, x.a)))
    (hpos : ∀ n ∈ i.names, ∀ s ∈ OMap.keys (mapOf i n), 0 < dimM (mapOf i n) s)
    (hpm : PairMatches i (links.map fun x => (x.a, x.b)))
    (hpo : PairOpposite i (links.map fun x => (x.a, x.b)))
    (hl : Separated t (links.map Link.n) ∨ ∀ s : σ, -s = s)
    (hnd : ∀ x ∈ links, x.b ∉ others t.names (links.map Link.n))
    (hb : t.core.blocks ≠ []) (hbi : i.core.blocks ≠ []) :
    ∃ i' r, identity junk i (links.map fun x => (x.a, x.b)) = .ok i' ∧
      contract ce cn t i' (links.map fun x => (x.n, x.a)) = .ok r ∧ WF r ∧
      r.names = others t.names (links.map Link.n) ++ others i.names (links.map Link.a) ∧
      ∀ p, ValidPos r p → elem r p = elem t (relink links p) := by
  have hpn : (pairNames (links.map fun x => (x.a, x.b))).Perm i.names := by
    refine List.Perm.trans ?_ hab.symm
    clear hab hn hnt hm hpm hpo hl hnd hne
    unfold pairNames
    induction links with
    | nil => exact List.Perm.refl _
    | cons x l ih =>
      simp only [List.map_cons, List.flatMap_cons, List.cons_append, List.nil_append]
      refine List.Perm.cons _ ?_
      refine List.Perm.trans (List.Perm.cons _ ih) ?_
      exact List.perm_middle.symm
  obtain ⟨i', e1, e2, e3, e4, e5⟩ := C37_identity_partial junk hi hpn (by
    intro hc
    rw [hc] at hab
    have := hab.length_eq
    simp at this
    exact hne (List.length_eq_zero_iff.1 (by omega))) hpos hpm hpo
  have em : ∀ n, edgeOf i' n = edgeOf i n := fun n => by unfold edgeOf; rw [e3, e4]
  have emm : ∀ n, mapOf i' n = mapOf i n := fun n => by unfold mapOf; rw [em]
  have hval : ∀ p, ValidPos i' p ↔ ValidPos i p := fun p => by
    rw [validPos_iff e2, validPos_iff hi, e3, show mapOf i' = mapOf i from funext emm]
  obtain ⟨r, f1, f2, f3, f4⟩ := C37_contract_bosonic ce hg hcn hf h e2 hn hnt (by rw [e3]; exact hab)
    ⟨fun hf' c hc => by rw [em]; exact hm.arrows hf' c hc,
      fun c hc s => by rw [emm]; exact hm.maps c hc s⟩
    (fun x hx s => by
      rw [emm, emm]; exact hpm (x.a, x.b) (List.mem_map.2 ⟨x, hx, rfl⟩) s)
    (fun p hv => by
      rw [e5 p ((hval p).1 hv)]
      congr 1
      refine if_congr ?_ rfl rfl
      unfold OnDiagonal
      simp only [List.mem_map, forall_exists_index, and_imp, forall_apply_eq_imp_iff₂])
    hl hnd hb (by
      intro hc
      have h1 := e2.blocks
      have h2 := hi.blocks
      rw [e4, hc] at h1
      rw [← h1] at h2
      simp at h2
      exact hbi h2)
  exact ⟨i', r, e1, f1, f2, by rw [f3, e3], f4⟩

end

/-! ## instances -/

/-- Names and dimensions `1 : 2, 2 : 3, 3 : 2`. -/
def sampleN1 : Tensor ℕ NoSymmetry ℤ :=
  ⟨[2, 1, 3], [⟨false, [(⟨⟩, 3)]⟩, ⟨false, [(⟨⟩, 2)]⟩, ⟨false, [(⟨⟩, 2)]⟩],
    [([⟨⟩, ⟨⟩, ⟨⟩], [1, 2, 3, 4, 5, 6, 7, 8, 9, 10, 11, 12])]⟩

/-- Names and dimensions `1 : 2, 4 : 2, 5 : 3`. -/
def sampleN2 : Tensor ℕ NoSymmetry ℤ :=
  ⟨[4, 5, 1], [⟨false, [(⟨⟩, 2)]⟩, ⟨false, [(⟨⟩, 3)]⟩, ⟨false, [(⟨⟩, 2)]⟩],
    [([⟨⟩, ⟨⟩, ⟨⟩], [1, -1, 2, -2, 3, -3, 4, -4, 5, -5, 6, 7])]⟩

theorem sampleN1_wf : WF sampleN1 := by
  refine ⟨by decide, by decide, by decide, by decide +kernel, by decide +kernel⟩

theorem sampleN2_wf : WF sampleN2 := by
  refine ⟨by decide, by decide, by decide, by decide +kernel, by decide +kernel⟩

/-- The edge `1` is shared, `2` is contracted with `5`. -/
example : WF sampleN1 ∧ WF sampleN2 ∧ [names0.c0, names0.c1, names0.c2].Nodup ∧
    GemmOk (refGemm : Gemm ℤ) ∧ TatSym.isNoSym NoSymmetry = true ∧
    knownPairs sampleN1 sampleN2 [(2, 5), (9, 5)] = [(2, 5)] ∧
    (∀ c ∈ [(2, 5)], mapOf sampleN1 c.1 = mapOf sampleN2 c.2) ∧
    sharedNames sampleN1 sampleN2 [(2, 5)] = [1] ∧ mapOf sampleN1 1 = mapOf sampleN2 1 :=
  ⟨sampleN1_wf, sampleN2_wf, by decide, refGemm_ok, rfl, by decide +kernel, by decide +kernel,
    by decide +kernel, by decide +kernel⟩

example : contract ce0 names0 sampleN1 sampleN2 [(2, 5), (9, 5)] = .ok
    ⟨[1, 3, 4], [⟨false, [(⟨⟩, 2)]⟩, ⟨false, [(⟨⟩, 2)]⟩, ⟨false, [(⟨⟩, 2)]⟩],
      [([⟨⟩, ⟨⟩, ⟨⟩], [1 * 1 + 5 * 2 + 9 * 3, 1 * 4 + 5 * 5 + 9 * 6, 2 * 1 + 6 * 2 + 10 * 3,
        2 * 4 + 6 * 5 + 10 * 6, -(3 * 1) - 7 * 2 - 11 * 3, -(3 * 4) - 7 * 5 + 11 * 7,
        -(4 * 1) - 8 * 2 - 12 * 3, -(4 * 4) - 8 * 5 + 12 * 7])]⟩ := by
  decide +kernel

/-- Shared edges of different dimensions. -/
example : 4 ∈ sharedNames sampleN2 (edgeRename sampleN1 [(2, 4)]) [] ∧
    mapOf sampleN2 4 ≠ mapOf (edgeRename sampleN1 [(2, 4)]) 4 ∧
    contract ce0 names0 sampleN2 (edgeRename sampleN1 [(2, 4)]) [] =
      .error "Cannot fuse two edge with different shape" := by
  decide +kernel

/-- **C27**: the dimensions of contracted edges are not compared.  With an edge of dimension two
contracted with one of dimension three the contraction succeeds: it sums two products. -/
theorem C27_dimension_unchecked :
    contract ce0 names0 (⟨[1], [⟨false, [(⟨⟩, 2)]⟩], [([⟨⟩], [3, 5])]⟩ : Tensor ℕ NoSymmetry ℤ)
      ⟨[2], [⟨false, [(⟨⟩, 3)]⟩], [([⟨⟩], [10, 100, 1000])]⟩ [(1, 2)] =
        .ok ⟨[], [], [([], [530])]⟩ := by
  decide +kernel

/-- The shape of an identity for the edge `7` of `sampleU1`. -/
def sampleEye : Tensor ℕ U1Symmetry ℤ :=
  ⟨[8, 9], [⟨false, [(⟨-1⟩, 3), (⟨0⟩, 2), (⟨1⟩, 1)]⟩, ⟨false, [(⟨-1⟩, 1), (⟨0⟩, 2), (⟨1⟩, 3)]⟩],
    [([⟨-1⟩, ⟨1⟩], [7, 7, 7, 7, 7, 7, 7, 7, 7]), ([⟨0⟩, ⟨0⟩], [7, 7, 7, 7]), ([⟨1⟩, ⟨-1⟩], [7])]⟩

theorem sampleEye_wf : WF sampleEye := by
  refine ⟨by decide, by decide, by decide, by decide +kernel, by decide +kernel⟩

/-- The hypotheses of `C37_identity_contract`. -/
example : WF sampleU1 ∧ WF sampleEye ∧ sampleEye.names.Perm [8, 9] ∧
    Matched sampleU1 sampleEye [(7, 8)] ∧
    (∀ n ∈ sampleEye.names, ∀ s ∈ OMap.keys (mapOf sampleEye n), 0 < dimM (mapOf sampleEye n) s) ∧
    PairMatches sampleEye [(8, 9)] ∧ PairOpposite sampleEye [(8, 9)] ∧
    9 ∉ others sampleU1.names [7] := by
  refine ⟨sampleU1_wf, sampleEye_wf, by decide, ⟨fun h => absurd h (by decide), fun c hc => ?_⟩,
    by decide +kernel, fun c hc s => ?_, C37_matrix (by decide), by decide⟩
  · rw [List.mem_singleton] at hc
    subst hc
    exact maps_of_keys (by decide +kernel) (by decide +kernel)
  · rw [List.mem_singleton] at hc
    subst hc
    unfold dimM
    rw [maps_of_keys (m1 := mapOf sampleEye 8) (m2 := mapOf sampleEye 9) (by decide +kernel)
      (by decide +kernel)]

example : ((identity (fun _ _ => 77) sampleEye [(8, 9)]).bind fun i =>
      contract ce0 names0 sampleU1 i [(7, 8)]) = .ok
    ⟨[3, 9], [⟨false, [(⟨-1⟩, 2), (⟨0⟩, 1), (⟨1⟩, 2)]⟩, ⟨false, [(⟨-1⟩, 1), (⟨0⟩, 2), (⟨1⟩, 3)]⟩],
      [([⟨-1⟩, ⟨1⟩], [5, 7, 9, 6, 8, 10]), ([⟨0⟩, ⟨0⟩], [3, 4]), ([⟨1⟩, ⟨-1⟩], [1, 2])]⟩ := by
  decide +kernel

/-- Two pairs without symmetry. -/
example : ((identity (fun _ _ => 77) (⟨[8, 9, 6, 4], [⟨false, [(⟨⟩, 3)]⟩, ⟨false, [(⟨⟩, 2)]⟩,
      ⟨false, [(⟨⟩, 3)]⟩, ⟨false, [(⟨⟩, 2)]⟩], [([⟨⟩, ⟨⟩, ⟨⟩, ⟨⟩], List.replicate 36 7)]⟩ :
        Tensor ℕ NoSymmetry ℤ) [(8, 6), (4, 9)]).bind fun i =>
      contract ce0 names0 sampleN1 i [(2, 8), (1, 4)]) = .ok
    ⟨[3, 9, 6], [⟨false, [(⟨⟩, 2)]⟩, ⟨false, [(⟨⟩, 2)]⟩, ⟨false, [(⟨⟩, 3)]⟩],
      [([⟨⟩, ⟨⟩, ⟨⟩], [1, 5, 9, 3, 7, 11, 2, 6, 10, 4, 8, 12])]⟩ := by
  decide +kernel

end TAT
