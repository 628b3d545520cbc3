import Verif.Contract.Unit
import Verif.Contract.Main
import Verif.Scalar.Lemmas
import Verif.TensorMisc.Lemmas

/-!
# Contraction of tensors without symmetry
-/

set_option linter.unusedSectionVars false

namespace TAT

variable {ν σ α : Type} [LinearOrder ν] [TatSym σ]

/-- Three things, the last two in order or exchanged. -/
def tripleOf {β : Type} (straight : Bool) (x y z : β) : List β :=
  if straight then [x, y, z] else [x, z, y]

/-! ## the batch of matrix products -/

theorem fuse_batch [CommRing α] {g : Gemm α} (hg : GemmOk g) (right1 right2 : Bool) (key : List σ)
    {l m n k : ℕ} (hm : 0 < m) (hn : 0 < n) (hk : 0 < k) {data1 data2 : List α}
    (h1 : data1.length = l * m * k) (h2 : data2.length = l * n * k) {is : List ℕ} (hs : is.Nodup)
    (hl : ∀ i ∈ is, i < l) {dst : List α} (h3 : dst.length = l * m * n) :
    ∃ out, (is.map (fuseJob right1 right2 key data1 data2 m n k)).foldlM (runJob g) [(key, dst)] =
        .ok [(key, out)] ∧ out.length = dst.length ∧
      (∀ i ∈ is, ∀ j < m, ∀ q < n, out[m * n * i + (j * n + q)]? =
        some ((List.range k).map fun x => data1.getD (m * k * i + cell right1 m k j x) 0 *
          data2.getD (k * n * i + cell right2 n k q x) 0).sum) ∧
      ∀ x, (∀ i ∈ is, ¬ (m * n * i ≤ x ∧ x < m * n * (i + 1))) → out[x]? = dst[x]? := by
  induction is generalizing dst with
  | nil => exact ⟨dst, rfl, rfl, by simp, fun _ _ => rfl⟩
  | cons i is ih =>
    rw [List.nodup_cons] at hs
    have hi := hl i (by simp)
    have room : ∀ a b : ℕ, a * b * i + a * b ≤ l * a * b := fun a b => by
      calc a * b * i + a * b = (i + 1) * (a * b) := by ring
        _ ≤ l * (a * b) := Nat.mul_le_mul_right _ hi
        _ = l * a * b := by ring
    have r1 := room m k
    have r2 := room k n
    have r3 := room m n
    have r2' : l * k * n = l * n * k := by ring
    obtain ⟨c, c1, c2, c3, c4⟩ := gemm_block hg right1 right2 hm hn hk (1 : α)
      (data1 := data1.drop (m * k * i)) (data2 := data2.drop (k * n * i))
      (dst := dst.drop (m * n * i)) (by rw [List.length_drop]; omega)
      (by rw [List.length_drop]; omega) (by rw [List.length_drop]; omega)
    rw [List.length_drop] at c2
    have hrun : runJob g [(key, dst)] (fuseJob right1 right2 key data1 data2 m n k i) =
        .ok [(key, dst.take (m * n * i) ++ c)] := by
      unfold runJob
      have hf : OMap.find? [(key, dst)] (fuseJob right1 right2 key data1 data2 m n k i).key =
          some dst := by simp [OMap.find?, fuseJob]
      rw [hf]
      have : g ⟨(fuseJob right1 right2 key data1 data2 m n k i).ta,
          (fuseJob right1 right2 key data1 data2 m n k i).tb,
          (fuseJob right1 right2 key data1 data2 m n k i).m,
          (fuseJob right1 right2 key data1 data2 m n k i).n,
          (fuseJob right1 right2 key data1 data2 m n k i).k,
          (fuseJob right1 right2 key data1 data2 m n k i).alpha,
          (fuseJob right1 right2 key data1 data2 m n k i).a,
          (fuseJob right1 right2 key data1 data2 m n k i).lda,
          (fuseJob right1 right2 key data1 data2 m n k i).b,
          (fuseJob right1 right2 key data1 data2 m n k i).ldb,
          (fuseJob right1 right2 key data1 data2 m n k i).beta,
          dst.drop (fuseJob right1 right2 key data1 data2 m n k i).offset,
          (fuseJob right1 right2 key data1 data2 m n k i).ldc⟩ = .ok c := c1
      dsimp only
      rw [this]
      simp [Outcome.bind, OMap.set, fuseJob]
    have hlt : (dst.take (m * n * i)).length = m * n * i := by
      rw [List.length_take]; omega
    have hlen : (dst.take (m * n * i) ++ c).length = dst.length := by
      rw [List.length_append, hlt, c2]; omega
    obtain ⟨out, o1, o2, o3, o4⟩ := ih hs.2 (fun i' hi' => hl i' (by simp [hi']))
      (dst := dst.take (m * n * i) ++ c) (by rw [hlen, h3])
    refine ⟨out, ?_, by rw [o2, hlen], fun i' hi' j hj q hq => ?_, fun x hx => ?_⟩
    · rw [List.map_cons, List.foldlM_cons, hrun]
      exact o1
    · rcases List.mem_cons.1 hi' with rfl | hi'
      · have hy : j * n + q < m * n := by
          calc j * n + q < j * n + n := by omega
            _ = (j + 1) * n := by ring
            _ ≤ m * n := Nat.mul_le_mul_right _ hj
        rw [o4 _ (fun i2 hi2 hc => ?_), List.getElem?_append_right (by rw [hlt]; omega), hlt,
          Nat.add_sub_cancel_left, c3 j hj q hq, one_mul]
        · congr 3
          funext x
          rw [List.getD_eq_getElem?_getD, List.getD_eq_getElem?_getD, List.getElem?_drop,
            List.getElem?_drop, ← List.getD_eq_getElem?_getD, ← List.getD_eq_getElem?_getD]
        · have hne : i' ≠ i2 := fun e => hs.1 (e ▸ hi2)
          rcases lt_or_gt_of_ne hne with hlt' | hlt'
          · have : m * n * (i' + 1) ≤ m * n * i2 := Nat.mul_le_mul_left _ hlt'
            rw [Nat.mul_add, Nat.mul_one] at this
            omega
          · have : m * n * (i2 + 1) ≤ m * n * i' := Nat.mul_le_mul_left _ hlt'
            omega
      · exact o3 i' hi' j hj q hq
    · rw [o4 x fun i' hi' => hx i' (by simp [hi'])]
      have hxi := hx i (by simp)
      rw [Nat.mul_add, Nat.mul_one] at hxi
      by_cases hlo : x < m * n * i
      · rw [List.getElem?_append_left (by rw [hlt]; exact hlo), List.getElem?_take, if_pos hlo]
      · rw [List.getElem?_append_right (by rw [hlt]; omega), hlt, c4 _ (by omega),
          List.getElem?_drop]
        congr 1
        omega

/-! ## the product -/

theorem tripleOf_maps {right : Bool} {edges : List (Edge σ)} {A B C : List (σ × ℕ)}
    (h : edges.map Edge.map = tripleOf right A B C) :
    (edges.getD 0 {}).map = A ∧ (edges.getD (if right then 1 else 2) {}).map = B ∧
      (edges.getD (if right then 2 else 1) {}).map = C := by
  unfold tripleOf at h
  cases right
  · simp only [Bool.false_eq_true, if_false] at h
    match edges, h with
    | [a, b, c], h => simpa [and_comm] using h
  · simp only [if_true] at h
    match edges, h with
    | [a, b, c], h => simpa using h

theorem fuse_product [CommRing α] {g : Gemm α} (hg : GemmOk g) (hns : TatSym.isNoSym σ = true)
    (junk : List σ → ℕ → α) {cn : ContractNames ν} (hcn : [cn.c0, cn.c1, cn.c2].Nodup)
    {right1 right2 : Bool} {m1 m2 : Tensor ν σ α} {l m n k : ℕ} {k1 k2 : List σ}
    {data1 data2 : List α}
    (he1 : m1.core.edges.map Edge.map = tripleOf right1 [(0, l)] [(0, m)] [(0, k)])
    (he2 : m2.core.edges.map Edge.map = tripleOf right2 [(0, l)] [(0, n)] [(0, k)])
    (hb1 : m1.core.blocks = [(k1, data1)]) (hb2 : m2.core.blocks = [(k2, data2)])
    (h1 : data1.length = l * m * k) (h2 : data2.length = l * n * k) :
    ∃ out, fuseProduct g junk cn right1 right2 m1 m2 = .ok out ∧ out.length = l * m * n ∧
      ∀ i < l, ∀ j < m, ∀ q < n, out[m * n * i + (j * n + q)]? =
        some ((List.range k).map fun x => data1.getD (m * k * i + cell right1 m k j x) 0 *
          data2.getD (k * n * i + cell right2 n k q x) 0).sum := by
  obtain ⟨a0, a1, a2⟩ := tripleOf_maps he1
  obtain ⟨_, b1, _⟩ := tripleOf_maps he2
  unfold fuseProduct
  dsimp only
  set E0 := m1.core.edges.getD 0 {} with hE0
  set E1 := m1.core.edges.getD (if right1 = true then 1 else 2) {} with hE1
  set E2 := m2.core.edges.getD (if right2 = true then 1 else 2) {} with hE2
  set K := m1.core.edges.getD (if right1 = true then 2 else 1) {} with hK
  have hcn' := hcn
  simp only [List.nodup_cons, List.mem_cons, List.not_mem_nil, or_false, not_or, not_false_eq_true,
    List.nodup_nil, and_true] at hcn'
  obtain ⟨⟨n01, n02⟩, n12⟩ := hcn'
  let e : ν → Edge σ := fun n => if n = cn.c0 then E0 else if n = cn.c1 then E1 else E2
  have ee : [cn.c0, cn.c1, cn.c2].map e = [E0, E1, E2] := by
    simp only [e, List.map_cons, List.map_nil, if_true, if_neg (Ne.symm n01), if_neg (Ne.symm n02),
      if_neg (Ne.symm n12)]
  have e0 : (e cn.c0).map = [(0, l)] := by simp only [e, if_true, a0]
  have e1 : (e cn.c1).map = [(0, m)] := by simp only [e, if_neg (Ne.symm n01), if_true, a1]
  have e2 : (e cn.c2).map = [(0, n)] := by
    simp only [e, if_neg (Ne.symm n02), if_neg (Ne.symm n12), b1]
  obtain ⟨p, hp, hF⟩ := mkTensor_fresh junk hcn e (by
    intro x hx
    simp only [List.mem_cons, List.not_mem_nil, or_false] at hx
    rcases hx with rfl | rfl | rfl
    · rw [e0]; simp [OMap.Sorted]
    · rw [e1]; simp [OMap.Sorted]
    · rw [e2]; simp [OMap.Sorted])
  rw [ee] at hp
  rw [hp]
  dsimp only [Outcome.bind]
  have hkey : KeyOk (fun n => (e n).map) [cn.c0, cn.c1, cn.c2] fun _ => ((0 : σ), 0) := by
    refine ⟨fun x hx => ?_, sym_zero hns _⟩
    simp only [List.mem_cons, List.not_mem_nil, or_false] at hx
    rcases hx with rfl | rfl | rfl
    · dsimp only; rw [e0]; simp [OMap.keys]
    · dsimp only; rw [e1]; simp [OMap.keys]
    · dsimp only; rw [e2]; simp [OMap.keys]
  have hpb : p.core.blocks ≠ [] := by
    have := (hF.keys fun _ => ((0 : σ), 0)).2 hkey
    intro hb
    rw [hb] at this
    simp [OMap.keys] at this
  have hk0 := solid_keys hns hF.wf hpb
  have hmap : ∀ x ∈ [cn.c0, cn.c1, cn.c2], mapOf p x = [(0, dimM (e x).map 0)] := by
    intro x hx
    rw [unit_map hns (mapOf_sorted hF.wf x (by rw [hF.namesEq]; exact hx))
      (hk0 x (by rw [hF.namesEq]; exact hx)), hF.dim hkey x hx]
  have hpe : p.core.edges = [edgeOf p cn.c0, edgeOf p cn.c1, edgeOf p cn.c2] := by
    rw [edges_named hF.wf, hF.namesEq]; rfl
  have d0 : (edgeOf p cn.c0).map = [(0, l)] := by
    have := hmap cn.c0 (by simp); rw [e0] at this; simpa [dimM, OMap.find?, mapOf] using this
  have d1 : (edgeOf p cn.c1).map = [(0, m)] := by
    have := hmap cn.c1 (by simp); rw [e1] at this; simpa [dimM, OMap.find?, mapOf] using this
  have d2 : (edgeOf p cn.c2).map = [(0, n)] := by
    have := hmap cn.c2 (by simp); rw [e2] at this; simpa [dimM, OMap.find?, mapOf] using this
  obtain ⟨kb, d, hd1, hd2, _⟩ := solid_block hns hF.wf hpb
  have hdl : d.length = l * m * n := by
    rw [hd2, hF.namesEq]
    have : ∀ x, dimN p x = dimM (edgeOf p x).map 0 := fun _ => rfl
    simp only [List.map_cons, List.map_nil, this, d0, d1, d2, dimM, OMap.find?, if_true,
      Option.getD_some, List.prod_cons, List.prod_nil, mul_one]
    ring
  rw [hpe, hd1, hb1, hb2]
  have g0 : [edgeOf p cn.c0, edgeOf p cn.c1, edgeOf p cn.c2].getD 0 {} = edgeOf p cn.c0 := rfl
  have g1 : [edgeOf p cn.c0, edgeOf p cn.c1, edgeOf p cn.c2].getD 1 {} = edgeOf p cn.c1 := rfl
  have g2 : [edgeOf p cn.c0, edgeOf p cn.c1, edgeOf p cn.c2].getD 2 {} = edgeOf p cn.c2 := rfl
  rw [g0, g1, g2, d0, d1, d2, a2]
  dsimp only [firstValue, Outcome.bind]
  by_cases hpos : m ≠ 0 ∧ n ≠ 0 ∧ k ≠ 0
  · rw [if_pos hpos, gemmBatch_eq]
    obtain ⟨out, o1, o2, o3, _⟩ := fuse_batch hg right1 right2 kb (Nat.pos_of_ne_zero hpos.1)
      (Nat.pos_of_ne_zero hpos.2.1) (Nat.pos_of_ne_zero hpos.2.2) h1 h2 List.nodup_range
      (fun i hi => List.mem_range.1 hi) hdl
    rw [o1]
    exact ⟨out, rfl, by rw [o2, hdl], fun i hi => o3 i (List.mem_range.2 hi)⟩
  · rw [if_neg hpos]
    by_cases hmn : m ≠ 0 ∧ n ≠ 0
    · rw [if_pos hmn]
      have hk : k = 0 := by
        by_contra hk
        exact hpos ⟨hmn.1, hmn.2, hk⟩
      subst hk
      refine ⟨_, rfl, by rw [List.length_map, hdl], fun i hi j hj q hq => ?_⟩
      have hy : m * n * i + (j * n + q) < d.length := by
        rw [hdl]
        have h1 : j * n + q < m * n := by
          calc j * n + q < j * n + n := by omega
            _ = (j + 1) * n := by ring
            _ ≤ m * n := Nat.mul_le_mul_right _ hj
        calc m * n * i + (j * n + q) < m * n * i + m * n := by omega
          _ = (i + 1) * (m * n) := by ring
          _ ≤ l * (m * n) := Nat.mul_le_mul_right _ hi
          _ = l * m * n := by ring
      rw [List.getElem?_map, List.getElem?_eq_getElem hy]
      simp
    · rw [if_neg hmn]
      refine ⟨_, rfl, hdl, fun i _ j hj q hq => ?_⟩
      exact absurd ⟨by omega, by omega⟩ hmn

/-! ## planning -/

/-- The edges of a tensor that are neither contracted nor shared. -/
def kept (names K F : List ν) : List ν := names.filter fun n => decide (n ∉ K) && !decide (n ∈ F)

theorem mem_kept {names K F : List ν} {n : ν} : n ∈ kept names K F ↔ n ∈ names ∧ n ∉ K ∧ n ∉ F := by
  unfold kept
  rw [List.mem_filter]
  simp

theorem kept_perm {names K F : List ν} (hn : names.Nodup) (hK : K.Nodup) (hF : F.Nodup)
    (sK : ∀ n ∈ K, n ∈ names) (sF : ∀ n ∈ F, n ∈ names) (hd : ∀ n ∈ F, n ∉ K) :
    names.Perm (F ++ (kept names K F ++ K)) := by
  refine (List.perm_ext_iff_of_nodup hn ?_).2 fun n => ?_
  · rw [List.nodup_append, List.nodup_append]
    refine ⟨hF, ⟨hn.filter _, hK, ?_⟩, ?_⟩
    · rintro x hx y hy rfl
      exact (mem_kept.1 hx).2.1 hy
    · rintro x hx y hy rfl
      rcases List.mem_append.1 hy with hy | hy
      · exact (mem_kept.1 hy).2.2 hx
      · exact hd _ hx hy
  · rw [List.mem_append, List.mem_append, mem_kept]
    constructor
    · intro h
      by_cases h1 : n ∈ F
      · exact Or.inl h1
      by_cases h2 : n ∈ K
      · exact Or.inr (Or.inr h2)
      · exact Or.inr (Or.inl ⟨h, h2, h1⟩)
    · rintro (h | h | h)
      · exact sF n h
      · exact h.1
      · exact sK n h

theorem sorted_unitMap (l : List ν) : OMap.Sorted (OMap.ofList (l.map fun n => (n, ()))) :=
  OMap.sorted_foldl_set [] _ (by simp [OMap.Sorted])

theorem keys_unitMap (l : List ν) (n : ν) :
    n ∈ OMap.keys (OMap.ofList (l.map fun n => (n, ()))) ↔ n ∈ l := by
  unfold OMap.ofList
  have : ∀ (l : List ν) (m : List (ν × Unit)),
      n ∈ OMap.keys ((l.map fun n => (n, ())).foldl (fun m e => OMap.set m e.1 e.2) m) ↔
        n ∈ OMap.keys m ∨ n ∈ l := by
    intro l
    induction l with
    | nil => intro m; simp
    | cons x l ih =>
      intro m
      rw [List.map_cons, List.foldl_cons, ih, OMap.mem_keys_set, List.mem_cons]
      tauto
  rw [this]
  simp [OMap.keys]

theorem fuseNames_sorted (cs : List (ν × ν)) (names1 names2 : List ν) :
    (fuseNames cs names1 names2).Pairwise (· < ·) := sorted_unitMap _

theorem fuseNames_nodup (cs : List (ν × ν)) (names1 names2 : List ν) :
    (fuseNames cs names1 names2).Nodup := (sorted_unitMap _).nodup

theorem mem_fuseNames {cs : List (ν × ν)} {names1 names2 : List ν} {n : ν} :
    n ∈ fuseNames cs names1 names2 ↔ n ∈ names1 ∧ n ∈ names2 ∧ n ∉ cs.map Prod.fst ∧
      n ∉ cs.map Prod.snd := by
  unfold fuseNames
  rw [keys_unitMap, List.mem_filter]
  simp only [Bool.and_eq_true, decide_eq_true_eq, Bool.not_eq_true', decide_eq_false_iff_not]
  tauto

theorem find_three {β : Type} {x y z : ν} (h : [x, y, z].Nodup) (u v w : β) :
    OMap.find? (OMap.ofList [(x, u), (y, v), (z, w)]) x = some u ∧
    OMap.find? (OMap.ofList [(x, u), (y, v), (z, w)]) y = some v ∧
    OMap.find? (OMap.ofList [(x, u), (y, v), (z, w)]) z = some w := by
  simp only [List.nodup_cons, List.mem_cons, List.not_mem_nil, or_false, not_or, not_false_eq_true,
    List.nodup_nil, and_true] at h
  obtain ⟨⟨n01, n02⟩, n12⟩ := h
  unfold OMap.ofList
  simp only [List.foldl_cons, List.foldl_nil]
  refine ⟨?_, ?_, ?_⟩
  · rw [OMap.find?_set, if_neg n02, OMap.find?_set, if_neg n01, OMap.find?_set, if_pos rfl]
  · rw [OMap.find?_set, if_neg n12, OMap.find?_set, if_pos rfl]
  · rw [OMap.find?_set, if_pos rfl]

theorem opM_fuse {a b c : ν} (h : [a, b, c].Nodup) (fuse free common : List ν) (right : Bool) :
    opM (fuseArgs (σ := σ) (a, fuse) (b, free) (c, common) right) =
      tripleOf right fuse free common := by
  have hp : [b, c, a].Nodup := by
    refine List.Perm.nodup_iff ?_ |>.1 h
    exact (List.perm_append_comm (l₁ := [a]) (l₂ := [b, c]))
  obtain ⟨h1, h2, h3⟩ := find_three hp free common fuse
  unfold opM mergeGroups fuseArgs tripleOf
  cases right <;> simp [h1, h2, h3]

theorem gather_fuse {t : Tensor ν σ α} (h : WF t) {a b c : ν} (hn : [a, b, c].Nodup)
    {fuse free common : List ν} (right : Bool) (hp : t.names.Perm (fuse ++ (free ++ common))) :
    Gather t (fuseArgs (a, fuse) (b, free) (c, common) right) where
  rename := rfl
  split := rfl
  cut := rfl
  wf := h.shaped
  pruned := fun _ => h.pruned
  newNodup := by
    unfold fuseArgs
    cases right
    · simp only [List.nodup_cons, List.mem_cons, List.not_mem_nil, or_false, not_or,
        not_false_eq_true, List.nodup_nil, and_true, Bool.false_eq_true, if_false] at hn ⊢
      exact ⟨⟨hn.1.2, hn.1.1⟩, Ne.symm hn.2⟩
    · exact hn
  perm := by
    rw [opM_fuse hn]
    refine hp.trans ?_
    unfold tripleOf
    cases right
    · simpa using (List.perm_append_comm (l₁ := free) (l₂ := common)).append_left fuse
    · simp

theorem tripleOf_map {β γ : Type} (r : Bool) (f : β → γ) (x y z : β) :
    (tripleOf r x y z).map f = tripleOf r (f x) (f y) (f z) := by
  unfold tripleOf
  cases r <;> rfl

theorem tripleOf_prod (r : Bool) (x y z : ℕ) : (tripleOf r x y z).prod = x * y * z := by
  unfold tripleOf
  cases r <;> simp <;> ring

theorem rowMajor_triple (r : Bool) (l m k i j x : ℕ) :
    rowMajor (tripleOf r l m k) (tripleOf r i j x) = m * k * i + cell r m k j x := by
  unfold tripleOf cell
  cases r <;> simp [rowMajor] <;> ring

theorem freeEdges_eq {t : Tensor ν σ α} (h : WF t) (f : ν → Bool) :
    freeEdges (t.names.filter f) t = (t.names.filter f).map (edgeOf t) := by
  unfold freeEdges
  rw [zip_named h, List.filter_map, List.map_map]
  congr 1
  refine List.filter_congr fun n hn => ?_
  simp [List.mem_filter, hn]

theorem fuseEdges_eq {t1 t2 : Tensor ν σ α} (h1 : WF t1) (h2 : WF t2)
    (hns : TatSym.isNoSym σ = true) {l : List ν}
    (hl : ∀ n ∈ l, n ∈ t1.names ∧ n ∈ t2.names ∧ mapOf t1 n = mapOf t2 n) :
    l.mapM (fuseEdge t1 t2) = .ok (l.map (edgeOf t1)) := by
  induction l with
  | nil => rfl
  | cons n l ih =>
    obtain ⟨a, b, c⟩ := hl n (by simp)
    have : fuseEdge t1 t2 n = .ok (edgeOf t1 n) := by
      unfold fuseEdge
      rw [edgeAt_eq h1.shaped a, edgeAt_eq h2.shaped b]
      dsimp only [Outcome.bind]
      rw [if_pos]
      rw [edgeEq_iff]
      exact ⟨c, fun hf => by rw [TatSym.noSym_bose hns] at hf; simp at hf⟩
    rw [List.mapM_cons, this, ih fun m hm => hl m (by simp [hm])]
    rfl

/-! ## the whole function -/

theorem contractSign_bose {t1 t2 : Tensor ν σ α} (hf : TatSym.isFermi σ = false)
    (cs : List (ν × ν)) (w1 w2 : ν → σ × ℕ) : contractSign t1 t2 cs w1 w2 = 1 := by
  unfold contractSign
  rw [hf]; rfl

theorem numN_congr {t : Tensor ν σ α} {g : List ν} {p q : ν → σ × ℕ} (h : ∀ n ∈ g, p n = q n) :
    numN t g p = numN t g q := by
  have : idxOf g p = idxOf g q := List.map_congr_left fun n hn => by rw [h n hn]
  unfold numN
  rw [this]

/-- The element of the product: the sum over the common index. -/
theorem fuse_sum [CommRing α] (hns : TatSym.isNoSym σ = true) {t1 t2 : Tensor ν σ α} (h1 : WF t1)
    (h2 : WF t2) (hb1 : t1.core.blocks ≠ []) {K : List (ν × ν)} (hp : Pairs t1.names t2.names K)
    (hm : Matched t1 t2 K) {F G1 G2 : List ν} (right1 right2 : Bool) {d1 d2 : List α}
    (hF1 : ∀ n ∈ F, n ∈ t1.names ∧ n ∉ K.map Prod.fst)
    (hF2 : ∀ n ∈ F, n ∈ t2.names ∧ n ∉ K.map Prod.snd)
    (hFm : ∀ n ∈ F, mapOf t1 n = mapOf t2 n)
    (hG1 : ∀ n ∈ G1, n ∈ t1.names ∧ n ∉ K.map Prod.fst)
    (hG2 : ∀ n ∈ G2, n ∈ t2.names ∧ n ∉ K.map Prod.snd)
    (hd1 : ∀ p, ValidPos t1 p →
      d1[rowMajor (tripleOf right1 (sizeN t1 F) (sizeN t1 G1) (sizeN t1 (K.map Prod.fst)))
        (tripleOf right1 (numN t1 F p) (numN t1 G1 p) (numN t1 (K.map Prod.fst) p))]? = elem t1 p)
    (hd2 : ∀ p, ValidPos t2 p →
      d2[rowMajor (tripleOf right2 (sizeN t2 F) (sizeN t2 G2) (sizeN t2 (K.map Prod.snd)))
        (tripleOf right2 (numN t2 F p) (numN t2 G2 p) (numN t2 (K.map Prod.snd) p))]? = elem t2 p)
    {p : ν → σ × ℕ}
    (hv1 : ∀ n ∈ t1.names, n ∉ K.map Prod.fst → (p n).2 < dimM (mapOf t1 n) (p n).1)
    (hv2 : ∀ n ∈ t2.names, n ∉ K.map Prod.snd → (p n).2 < dimM (mapOf t2 n) (p n).1) :
    ((List.range (sizeN t1 (K.map Prod.fst))).map fun x =>
      d1.getD (sizeN t1 G1 * sizeN t1 (K.map Prod.fst) * numN t1 F p +
        cell right1 (sizeN t1 G1) (sizeN t1 (K.map Prod.fst)) (numN t1 G1 p) x) 0 *
      d2.getD (sizeN t1 (K.map Prod.fst) * sizeN t2 G2 * numN t1 F p +
        cell right2 (sizeN t2 G2) (sizeN t1 (K.map Prod.fst)) (numN t2 G2 p) x) 0).sum =
      contracted t1 t2 K p := by
  have hal := aligned_of h1.shaped h2.shaped hp hm (Or.inr fun s => (sym_zero hns _).trans (sym_zero hns _).symm)
  have sub1 : ∀ n ∈ K.map Prod.fst, n ∈ t1.names := by
    intro n hn
    obtain ⟨c, hc, rfl⟩ := List.mem_map.1 hn
    exact hp.sub1 c hc
  have hk0 := solid_keys hns h1 hb1
  have hu1 : ∀ n ∈ K.map Prod.fst, mapOf t1 n = [(0, dimM (mapOf t1 n) 0)] := fun n hn =>
    unit_map hns (mapOf_sorted h1 n (sub1 n hn)) (hk0 n (sub1 n hn))
  have hmap : ∀ c ∈ K, mapOf t1 c.1 = mapOf t2 c.2 := by
    intro c hc
    refine OMap.ext (mapOf_sorted h1 _ (hp.sub1 c hc)) (mapOf_sorted h2 _ (hp.sub2 c hc)) fun s => ?_
    rw [hm.maps c hc, sym_zero hns (-s), sym_zero hns s]
  have hu2 : ∀ n ∈ K.map Prod.snd, mapOf t2 n = [(0, dimM (mapOf t2 n) 0)] := by
    intro n hn
    obtain ⟨c, hc, rfl⟩ := List.mem_map.1 hn
    rw [← hmap c hc]
    exact hu1 c.1 (List.mem_map_of_mem hc)
  have hsz : mergedDim ((K.map Prod.fst).map (mapOf t1)) 0 = sizeN t1 (K.map Prod.fst) :=
    mergedDim_unit hns hu1 0
  have hsz2 : sizeN t2 (K.map Prod.snd) = sizeN t1 (K.map Prod.fst) := by
    rw [← hsz, hal.1]
    exact (mergedDim_unit hns hu2 _).symm
  have hszF : sizeN t2 F = sizeN t1 F := by
    unfold sizeN
    rw [List.map_congr_left fun n hn => by unfold dimN; rw [← hFm n hn]]
    rfl
  rw [← hsz, sum_group hp.nodup1 (fun n hn => mapOf_sorted h1 n (sub1 n hn)) 0 _ p, hsz]
  unfold contracted
  refine sumOver_congr hp.nodup1 fun w hw hw' => ?_
  rw [if_pos (sym_zero hns _), contractSign_bose (TatSym.noSym_bose hns), one_smul,
    groupIdx_unit hns hu1]
  change d1.getD (_ + cell right1 _ _ _ (numN t1 (K.map Prod.fst) w)) 0 *
    d2.getD (_ + cell right2 _ _ _ (numN t1 (K.map Prod.fst) w)) 0 = _
  have q1 : ValidPos t1 w := (validPos_iff h1).2 ⟨fun n hn => by
    by_cases hc : n ∈ K.map Prod.fst
    · exact (mem_edgePositions (mapOf_sorted h1 n hn)).1 (hw n hc)
    · rw [hw' n hc]; exact hv1 n hn hc, sym_zero hns _⟩
  have q2 : ValidPos t2 (partner K p w) := (validPos_iff h2).2 ⟨fun n hn => by
    by_cases hc : n ∈ K.map Prod.snd
    · obtain ⟨c, hcK, rfl⟩ := List.mem_map.1 hc
      replace hc := hcK
      rw [partner_common hp.nodup2 p w hc, ← hmap c hc]
      have := (mem_edgePositions (mapOf_sorted h1 _ (hp.sub1 c hc))).1
        (hw c.1 (List.mem_map_of_mem hc))
      rw [sym_zero hns (w c.1).1] at this
      rw [sym_zero hns (-(w c.1).1)]
      exact this
    · rw [partner_free p w hc]; exact hv2 n hn hc, sym_zero hns _⟩
  have a1 := hd1 w q1
  rw [amp_valid h1 q1, rowMajor_triple, numN_congr (g := F) fun n hn => hw' n (hF1 n hn).2,
    numN_congr (g := G1) fun n hn => hw' n (hG1 n hn).2] at a1
  have a2 := hd2 _ q2
  have eF : numN t2 F (partner K p w) = numN t1 F p := by
    rw [numN_congr (g := F) fun n hn => partner_free p w (hF2 n hn).2]
    unfold numN
    rw [List.map_congr_left fun n hn => by unfold dimN; rw [← hFm n hn]]
    rfl
  have eK : numN t2 (K.map Prod.snd) (partner K p w) = numN t1 (K.map Prod.fst) w := by
    have := hal.2 w p
    rw [groupIdx_unit hns hu1, groupIdx_unit hns hu2] at this
    exact this.symm
  rw [amp_valid h2 q2, rowMajor_triple, eF, eK,
    numN_congr (g := G2) fun n hn => partner_free p w (hG2 n hn).2, hsz2] at a2
  rw [List.getD_eq_getElem?_getD, a1, List.getD_eq_getElem?_getD,
    Nat.mul_comm (sizeN t1 (K.map Prod.fst)) (sizeN t2 G2), a2]
  rfl

/-- What the function computes. -/
theorem contractWithFuse_spec [CommRing α] {g : Gemm α} (hg : GemmOk g)
    (hns : TatSym.isNoSym σ = true) (env1 env2 : Env σ α) (junk junk' : List σ → ℕ → α)
    {cn : ContractNames ν} (hcn : [cn.c0, cn.c1, cn.c2].Nodup) {t1 t2 : Tensor ν σ α} (h1 : WF t1)
    (h2 : WF t2) (hb1 : t1.core.blocks ≠ []) (hb2 : t2.core.blocks ≠ []) {pairs cs : List (ν × ν)}
    (hdup : duplicated (keepPairs t1.names t2.names pairs) = false)
    (hcs : keepPairs t1.names t2.names pairs = cs) (hm : Matched t1 t2 cs)
    (hfm : ∀ n ∈ fuseNames cs t1.names t2.names, mapOf t1 n = mapOf t2 n) :
    ∃ r, contractWithFuse g env1 env2 junk junk' cn t1 t2 pairs = .ok r ∧
      r.names = fuseNames cs t1.names t2.names ++
        kept t1.names (cs.map Prod.fst) (fuseNames cs t1.names t2.names) ++
        kept t2.names (cs.map Prod.snd) (fuseNames cs t1.names t2.names) ∧ WF r ∧
      r.core.edges = r.names.map (outerEdge t1 t2 cs) ∧
      ∀ p, ValidPos r p → elem r p = some (contracted t1 t2 cs p) := by
  have hp : Pairs t1.names t2.names cs := hcs ▸ pairs_keep hdup
  set F := fuseNames cs t1.names t2.names with hF
  set G1 := kept t1.names (cs.map Prod.fst) F with hG1
  set G2 := kept t2.names (cs.map Prod.snd) F with hG2
  have mF : ∀ n, n ∈ F ↔ n ∈ t1.names ∧ n ∈ t2.names ∧ n ∉ cs.map Prod.fst ∧ n ∉ cs.map Prod.snd :=
    fun n => mem_fuseNames
  have nF : F.Nodup := fuseNames_nodup _ _ _
  unfold contractWithFuse
  dsimp only
  rw [hcs] at hdup ⊢
  rw [hdup, if_neg (by simp)]
  rw [fuseEdges_eq h1 h2 hns (l := fuseNames cs t1.names t2.names)
    (fun n hn => ⟨((mF n).1 hn).1, ((mF n).1 hn).2.1, hfm n hn⟩)]
  dsimp only [Outcome.bind]
  have fe1 : (t1.names.filter fun n => (findPair1 cs n).isNone &&
      !decide (n ∈ fuseNames cs t1.names t2.names)) = G1 := by
    rw [hG1]; unfold kept
    exact List.filter_congr fun n _ => by rw [findPair1_none]
  have fe2 : (t2.names.filter fun n => (findPair2 cs n).isNone &&
      !decide (n ∈ fuseNames cs t1.names t2.names)) = G2 := by
    rw [hG2]; unfold kept
    exact List.filter_congr fun n _ => by rw [findPair2_none]
  rw [fe1, fe2]
  set sch := scheme cs t1.names t2.names G1 G2 with hsch
  have hK : sch.common.Perm cs := scheme_perm h1.nodup h2.nodup hp _ _
  set K := sch.common with hKd
  have hpK : Pairs t1.names t2.names K := hp.perm hK
  have hmK : Matched t1 t2 K := hm.perm hK
  have k1 : ∀ n, n ∈ K.map Prod.fst ↔ n ∈ cs.map Prod.fst := fun n => (hK.map Prod.fst).mem_iff
  have k2 : ∀ n, n ∈ K.map Prod.snd ↔ n ∈ cs.map Prod.snd := fun n => (hK.map Prod.snd).mem_iff
  have sub1 : ∀ n ∈ K.map Prod.fst, n ∈ t1.names := by
    intro n hn
    obtain ⟨c, hc, rfl⟩ := List.mem_map.1 hn
    exact hpK.sub1 c hc
  have sub2 : ∀ n ∈ K.map Prod.snd, n ∈ t2.names := by
    intro n hn
    obtain ⟨c, hc, rfl⟩ := List.mem_map.1 hn
    exact hpK.sub2 c hc
  have gk1 : kept t1.names (K.map Prod.fst) F = G1 := by
    rw [hG1]; unfold kept
    exact List.filter_congr fun n _ => by rw [decide_eq_decide.2 (not_congr (k1 n))]
  have gk2 : kept t2.names (K.map Prod.snd) F = G2 := by
    rw [hG2]; unfold kept
    exact List.filter_congr fun n _ => by rw [decide_eq_decide.2 (not_congr (k2 n))]
  have perm1 := kept_perm h1.nodup hpK.nodup1 nF sub1 (fun n hn => ((mF n).1 hn).1)
    (fun n hn hc => ((mF n).1 hn).2.2.1 ((k1 n).1 hc))
  have perm2 := kept_perm h2.nodup hpK.nodup2 nF sub2 (fun n hn => ((mF n).1 hn).2.1)
    (fun n hn hc => ((mF n).1 hn).2.2.2 ((k2 n).1 hc))
  rw [gk1] at perm1
  rw [gk2] at perm2
  have hcn2 : [cn.c0, cn.c2, cn.c1].Nodup := by
    refine List.Perm.nodup_iff ?_ |>.1 hcn
    exact List.Perm.cons _ (List.Perm.swap _ _ _)
  have ga1 := gather_fuse h1 hcn sch.right1 perm1
  have ga2 := gather_fuse h2 hcn2 sch.right2 perm2
  obtain ⟨m1, x1, d1, o1, o2, o3, o4, o5⟩ := gather_unit hns env1 ga1 hb1
  obtain ⟨m2, x2, d2, w1, w2, w3, w4, w5⟩ := gather_unit hns env2 ga2 hb2
  rw [opM_fuse hcn] at o2 o4 o5
  rw [opM_fuse hcn2] at w2 w4 w5
  simp only [tripleOf_map] at o2 o4 o5 w2 w4 w5
  rw [tripleOf_prod] at o4 w4
  have hszF : sizeN t2 F = sizeN t1 F := by
    unfold sizeN
    rw [List.map_congr_left fun n hn => by unfold dimN; rw [← hfm n hn]]
    rfl
  have hszK : sizeN t2 (K.map Prod.snd) = sizeN t1 (K.map Prod.fst) := by
    unfold sizeN
    rw [List.map_map, List.map_map]
    congr 1
    refine List.map_congr_left fun c hc => ?_
    simp only [Function.comp]
    unfold dimN dimM
    rw [hmK.maps c hc, sym_zero hns (-(0 : σ))]
  have w4' := w4
  rw [hszF, hszK] at w2 w4'
  obtain ⟨out, p1, p2, p3⟩ := fuse_product hg hns junk hcn o2 w2 o3 w3 o4 w4'
  rw [o1]
  dsimp only [Outcome.bind]
  rw [w1]
  dsimp only [Outcome.bind]
  rw [p1]
  dsimp only [Outcome.bind]
  have mG1 : ∀ n, n ∈ G1 ↔ n ∈ t1.names ∧ n ∉ cs.map Prod.fst ∧ n ∉ F := fun n => mem_kept
  have mG2 : ∀ n, n ∈ G2 ↔ n ∈ t2.names ∧ n ∉ cs.map Prod.snd ∧ n ∉ F := fun n => mem_kept
  have hnd : (F ++ G1 ++ G2).Nodup := by
    rw [List.nodup_append, List.nodup_append]
    refine ⟨⟨nF, h1.nodup.filter _, ?_⟩, h2.nodup.filter _, ?_⟩
    · rintro x hx y hy rfl
      exact ((mG1 x).1 hy).2.2 hx
    · rintro x hx y hy rfl
      have hy := (mG2 x).1 hy
      rcases List.mem_append.1 hx with hx | hx
      · exact hy.2.2 hx
      · have hx := (mG1 x).1 hx
        exact hy.2.2 ((mF x).2 ⟨hx.1, hy.1, hx.2.1, hy.2.1⟩)
  have oF : ∀ n ∈ F, outerEdge t1 t2 cs n = edgeOf t1 n := fun n hn => by
    unfold outerEdge
    rw [if_pos (mem_others.2 ⟨((mF n).1 hn).1, ((mF n).1 hn).2.2.1⟩)]
  have oG1 : ∀ n ∈ G1, outerEdge t1 t2 cs n = edgeOf t1 n := fun n hn => by
    unfold outerEdge
    rw [if_pos (mem_others.2 ⟨((mG1 n).1 hn).1, ((mG1 n).1 hn).2.1⟩)]
  have oG2 : ∀ n ∈ G2, outerEdge t1 t2 cs n = edgeOf t2 n := fun n hn => by
    unfold outerEdge
    rw [if_neg]
    intro hc
    have hn := (mG2 n).1 hn
    exact hn.2.2 ((mF n).2 ⟨(mem_others.1 hc).1, hn.1, (mem_others.1 hc).2, hn.2.1⟩)
  have hE : F.map (edgeOf t1) ++ freeEdges G1 t1 ++ freeEdges G2 t2 =
      (F ++ G1 ++ G2).map (outerEdge t1 t2 cs) := by
    rw [List.map_append, List.map_append, List.map_congr_left oF, List.map_congr_left oG1,
      List.map_congr_left oG2]
    congr 1
    · congr 1
      exact freeEdges_eq h1 _
    · exact freeEdges_eq h2 _
  rw [hE]
  have hk01 := solid_keys hns h1 hb1
  have hk02 := solid_keys hns h2 hb2
  have cover : ∀ n ∈ F ++ G1 ++ G2, (n ∈ t1.names ∧ outerEdge t1 t2 cs n = edgeOf t1 n) ∨
      (n ∈ t2.names ∧ outerEdge t1 t2 cs n = edgeOf t2 n) := by
    intro n hn
    rcases List.mem_append.1 hn with hn | hn
    · rcases List.mem_append.1 hn with hn | hn
      · exact Or.inl ⟨((mF n).1 hn).1, oF n hn⟩
      · exact Or.inl ⟨((mG1 n).1 hn).1, oG1 n hn⟩
    · exact Or.inr ⟨((mG2 n).1 hn).1, oG2 n hn⟩
  obtain ⟨r, e1, hFr⟩ := mkTensor_fresh junk' hnd (outerEdge t1 t2 cs) (by
    intro n hn
    rcases cover n hn with ⟨ha, hb⟩ | ⟨ha, hb⟩
    · rw [hb]; exact mapOf_sorted h1 n ha
    · rw [hb]; exact mapOf_sorted h2 n ha)
  rw [e1]
  dsimp only [Outcome.bind]
  have hzero : ∀ n ∈ F ++ G1 ++ G2, (0 : σ) ∈ OMap.keys (outerEdge t1 t2 cs n).map := by
    intro n hn
    rcases cover n hn with ⟨ha, hb⟩ | ⟨ha, hb⟩
    · rw [hb]; exact hk01 n ha
    · rw [hb]; exact hk02 n ha
  have hkey : KeyOk (fun n => (outerEdge t1 t2 cs n).map) (F ++ G1 ++ G2) fun _ => ((0 : σ), 0) :=
    ⟨hzero, sym_zero hns _⟩
  have hrb : r.core.blocks ≠ [] := by
    have := (hFr.keys fun _ => ((0 : σ), 0)).2 hkey
    intro hb
    rw [hb] at this
    simp [OMap.keys] at this
  obtain ⟨kb, d, hd1, hd2, _⟩ := solid_block hns hFr.wf hrb
  rw [hd1]
  dsimp only
  have hedges : r.core.edges = (F ++ G1 ++ G2).map (outerEdge t1 t2 cs) := by
    rw [hFr.edges, prunedEdges_eq_iff hnd]
    intro n hn s _
    exact ⟨fun _ => (0, 0), hkey, (sym_zero hns s).symm⟩
  have hout : ∀ n ∈ F ++ G1 ++ G2, edgeOf r n = outerEdge t1 t2 cs n := fun n hn =>
    edgeOf_unique hFr.wf (by rw [hFr.namesEq]; exact hedges) n (by rw [hFr.namesEq]; exact hn)
  have hmapF : (F.map fun n => dimM (outerEdge t1 t2 cs n).map 0) = F.map (dimN t1) :=
    List.map_congr_left fun n hn => by rw [oF n hn]; rfl
  have hmapG1 : (G1.map fun n => dimM (outerEdge t1 t2 cs n).map 0) = G1.map (dimN t1) :=
    List.map_congr_left fun n hn => by rw [oG1 n hn]; rfl
  have hmapG2 : (G2.map fun n => dimM (outerEdge t1 t2 cs n).map 0) = G2.map (dimN t2) :=
    List.map_congr_left fun n hn => by rw [oG2 n hn]; rfl
  have hdimr : r.names.map (dimN r) = F.map (dimN t1) ++ G1.map (dimN t1) ++ G2.map (dimN t2) := by
    rw [hFr.namesEq, ← hmapF, ← hmapG1, ← hmapG2, ← List.map_append, ← List.map_append]
    exact List.map_congr_left fun n hn => by unfold dimN mapOf; rw [hout n hn]
  have hlen : out.length = d.length := by
    rw [p2, hd2, hdimr, List.prod_append, List.prod_append]
    rfl
  have hwf : WF (⟨r.names, ⟨r.core.edges, [(kb, out)]⟩⟩ : Tensor ν σ α) :=
    ⟨hFr.wf.rank, hFr.wf.nodup, hFr.wf.sorted, by
      have := hFr.wf.blocks
      rw [hd1] at this
      rw [← this]
      simp [hlen], hFr.wf.pruned⟩
  refine ⟨_, rfl, hFr.namesEq, hwf, by rw [hFr.namesEq]; exact hedges, fun p hv => ?_⟩
  obtain ⟨kb', d', hd1', _, hd3'⟩ := solid_block hns hwf (by simp)
  simp only [List.cons.injEq, Prod.mk.injEq, and_true] at hd1'
  rw [hd3' p, ← hd1'.2]
  have hdimr' : (r.names.map (dimN (⟨r.names, ⟨r.core.edges, [(kb, out)]⟩⟩ : Tensor ν σ α))) =
      F.map (dimN t1) ++ G1.map (dimN t1) ++ G2.map (dimN t2) := hdimr
  have hv' := ((validPos_iff hwf).1 hv).1
  have hvo : ∀ n ∈ F ++ G1 ++ G2, (p n).2 < dimM (outerEdge t1 t2 cs n).map (p n).1 := by
    intro n hn
    have := hv' n (by rw [hFr.namesEq]; exact hn)
    change (p n).2 < dimM (edgeOf r n).map (p n).1 at this
    rwa [hout n hn] at this
  have hv1 : ∀ n ∈ t1.names, n ∉ K.map Prod.fst → (p n).2 < dimM (mapOf t1 n) (p n).1 := by
    intro n hn hc
    rw [k1] at hc
    by_cases hf : n ∈ F
    · have := hvo n (by simp [hf])
      rwa [oF n hf] at this
    · have hg : n ∈ G1 := (mG1 n).2 ⟨hn, hc, hf⟩
      have := hvo n (by simp [hg])
      rwa [oG1 n hg] at this
  have hv2 : ∀ n ∈ t2.names, n ∉ K.map Prod.snd → (p n).2 < dimM (mapOf t2 n) (p n).1 := by
    intro n hn hc
    rw [k2] at hc
    by_cases hf : n ∈ F
    · have := hvo n (by simp [hf])
      rw [oF n hf] at this
      rw [← hfm n hf]
      exact this
    · have hg : n ∈ G2 := (mG2 n).2 ⟨hn, hc, hf⟩
      have := hvo n (by simp [hg])
      rwa [oG2 n hg] at this
  have hF1 : ∀ n ∈ F, n ∈ t1.names ∧ n ∉ K.map Prod.fst := fun n hn =>
    ⟨((mF n).1 hn).1, fun hc => ((mF n).1 hn).2.2.1 ((k1 n).1 hc)⟩
  have hF2 : ∀ n ∈ F, n ∈ t2.names ∧ n ∉ K.map Prod.snd := fun n hn =>
    ⟨((mF n).1 hn).2.1, fun hc => ((mF n).1 hn).2.2.2 ((k2 n).1 hc)⟩
  have hG1' : ∀ n ∈ G1, n ∈ t1.names ∧ n ∉ K.map Prod.fst := fun n hn =>
    ⟨((mG1 n).1 hn).1, fun hc => ((mG1 n).1 hn).2.1 ((k1 n).1 hc)⟩
  have hG2' : ∀ n ∈ G2, n ∈ t2.names ∧ n ∉ K.map Prod.snd := fun n hn =>
    ⟨((mG2 n).1 hn).1, fun hc => ((mG2 n).1 hn).2.1 ((k2 n).1 hc)⟩
  change out[rowMajor (r.names.map (dimN (⟨r.names, ⟨r.core.edges, [(kb, out)]⟩⟩ :
    Tensor ν σ α))) (idxOf r.names p)]? = _
  rw [hdimr', hFr.namesEq]
  have hidx : idxOf (F ++ G1 ++ G2) p = idxOf F p ++ idxOf G1 p ++ idxOf G2 p := by
    unfold idxOf; rw [List.map_append, List.map_append]
  rw [hidx, rowMajor_append (by simp [idxOf]), rowMajor_append (by simp [idxOf])]
  have hi : (rowMajor (F.map (dimN t1)) (idxOf F p) * (G1.map (dimN t1)).prod +
      rowMajor (G1.map (dimN t1)) (idxOf G1 p)) * (G2.map (dimN t2)).prod +
      rowMajor (G2.map (dimN t2)) (idxOf G2 p) =
      sizeN t1 G1 * sizeN t2 G2 * numN t1 F p + (numN t1 G1 p * sizeN t2 G2 + numN t2 G2 p) := by
    unfold sizeN numN; ring
  rw [hi, p3 _ (numN_lt hns h1 (fun n hn => (hF1 n hn).1) fun n hn => hv1 n (hF1 n hn).1 (hF1 n hn).2)
    _ (numN_lt hns h1 (fun n hn => (hG1' n hn).1) fun n hn => hv1 n (hG1' n hn).1 (hG1' n hn).2)
    _ (numN_lt hns h2 (fun n hn => (hG2' n hn).1) fun n hn => hv2 n (hG2' n hn).1 (hG2' n hn).2)]
  rw [fuse_sum hns h1 h2 hb1 hpK hmK sch.right1 sch.right2 hF1 hF2 hfm hG1' hG2' o5 w5 hv1 hv2,
    contracted_perm h1.shaped h2.shaped hpK hK]

end TAT
