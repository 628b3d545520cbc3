import Verif.Contract.Merged
import Verif.Contract.Sign
import Verif.Contract.Sum
import Mathlib.Data.List.Dedup

/-!
# Planning a contraction: free and common edges
-/

set_option linter.unusedSectionVars false

namespace TAT

variable {ν σ α : Type} [LinearOrder ν]

/-- The pairs contracted: names of both tensors, none of them twice. -/
structure Pairs (names1 names2 : List ν) (cs : List (ν × ν)) : Prop where
  nodup1 : (cs.map Prod.fst).Nodup
  nodup2 : (cs.map Prod.snd).Nodup
  sub1 : ∀ c ∈ cs, c.1 ∈ names1
  sub2 : ∀ c ∈ cs, c.2 ∈ names2

theorem length_dedup_iff {β : Type} [DecidableEq β] (l : List β) :
    l.dedup.length = l.length ↔ l.Nodup := by
  constructor
  · intro h
    have := (List.dedup_sublist l).eq_of_length h
    rw [← this]; exact List.nodup_dedup l
  · intro h; rw [List.Nodup.dedup h]

theorem duplicated_iff (cs : List (ν × ν)) :
    duplicated cs = false ↔ (cs.map Prod.fst).Nodup ∧ (cs.map Prod.snd).Nodup := by
  unfold duplicated
  rw [Bool.or_eq_false_iff, decide_eq_false_iff_not, decide_eq_false_iff_not, not_not, not_not]
  have h1 := length_dedup_iff (cs.map Prod.fst)
  have h2 := length_dedup_iff (cs.map Prod.snd)
  rw [List.length_map] at h1 h2
  rw [h1, h2]

theorem pairs_keep {names1 names2 : List ν} {pairs : List (ν × ν)}
    (h : duplicated (keepPairs names1 names2 pairs) = false) :
    Pairs names1 names2 (keepPairs names1 names2 pairs) := by
  obtain ⟨h1, h2⟩ := (duplicated_iff _).1 h
  refine ⟨h1, h2, fun c hc => ?_, fun c hc => ?_⟩ <;>
  · unfold keepPairs at hc
    have := (List.mem_filter.1 hc).2
    simp only [Bool.and_eq_true, decide_eq_true_eq] at this
    tauto

theorem findPair1_none {cs : List (ν × ν)} {n : ν} :
    (findPair1 cs n).isNone = decide (n ∉ cs.map Prod.fst) := by
  unfold findPair1
  rw [Bool.eq_iff_iff, Option.isNone_iff_eq_none, List.find?_eq_none, decide_eq_true_eq,
    List.mem_map]
  simp only [decide_eq_true_eq]
  push Not
  rfl

theorem findPair2_none {cs : List (ν × ν)} {n : ν} :
    (findPair2 cs n).isNone = decide (n ∉ cs.map Prod.snd) := by
  unfold findPair2
  rw [Bool.eq_iff_iff, Option.isNone_iff_eq_none, List.find?_eq_none, decide_eq_true_eq,
    List.mem_map]
  simp only [decide_eq_true_eq]
  push Not
  rfl

theorem eq_of_fst {cs : List (ν × ν)} (h : (cs.map Prod.fst).Nodup) {c d : ν × ν} (hc : c ∈ cs)
    (hd : d ∈ cs) (he : c.1 = d.1) : c = d := List.inj_on_of_nodup_map h hc hd he

theorem eq_of_snd {cs : List (ν × ν)} (h : (cs.map Prod.snd).Nodup) {c d : ν × ν} (hc : c ∈ cs)
    (hd : d ∈ cs) (he : c.2 = d.2) : c = d := List.inj_on_of_nodup_map h hc hd he

theorem findPair1_some {cs : List (ν × ν)} (h : (cs.map Prod.fst).Nodup) {n : ν} {c : ν × ν} :
    findPair1 cs n = some c ↔ c ∈ cs ∧ c.1 = n := by
  unfold findPair1
  constructor
  · intro hf
    exact ⟨List.mem_of_find?_eq_some hf, by simpa using List.find?_some hf⟩
  · rintro ⟨hc, rfl⟩
    cases hf : cs.find? fun d => decide (d.1 = c.1) with
    | none =>
      rw [List.find?_eq_none] at hf
      simpa using hf c hc
    | some d =>
      rw [eq_of_fst h (List.mem_of_find?_eq_some hf) hc (by simpa using List.find?_some hf)]

theorem findPair2_some {cs : List (ν × ν)} (h : (cs.map Prod.snd).Nodup) {n : ν} {c : ν × ν} :
    findPair2 cs n = some c ↔ c ∈ cs ∧ c.2 = n := by
  unfold findPair2
  constructor
  · intro hf
    exact ⟨List.mem_of_find?_eq_some hf, by simpa using List.find?_some hf⟩
  · rintro ⟨hc, rfl⟩
    cases hf : cs.find? fun d => decide (d.2 = c.2) with
    | none =>
      rw [List.find?_eq_none] at hf
      simpa using hf c hc
    | some d =>
      rw [eq_of_snd h (List.mem_of_find?_eq_some hf) hc (by simpa using List.find?_some hf)]

variable {names1 names2 : List ν} {cs : List (ν × ν)}

theorem fit1_perm (h1 : names1.Nodup) (hp : Pairs names1 names2 cs) : (fit1 cs names1).Perm cs := by
  unfold fit1
  refine (List.perm_ext_iff_of_nodup (List.Nodup.filterMap ?_ h1)
    (List.Nodup.of_map _ hp.nodup1)).2 fun c => ?_
  · intro a a' b hb hb'
    rw [Option.mem_def, findPair1_some hp.nodup1] at hb hb'
    rw [← hb.2, ← hb'.2]
  · rw [List.mem_filterMap]
    constructor
    · rintro ⟨n, _, h⟩
      exact ((findPair1_some hp.nodup1).1 h).1
    · intro hc
      exact ⟨c.1, hp.sub1 c hc, (findPair1_some hp.nodup1).2 ⟨hc, rfl⟩⟩

theorem fit2_perm (h2 : names2.Nodup) (hp : Pairs names1 names2 cs) : (fit2 cs names2).Perm cs := by
  unfold fit2
  refine (List.perm_ext_iff_of_nodup (List.Nodup.filterMap ?_ h2)
    (List.Nodup.of_map _ hp.nodup1)).2 fun c => ?_
  · intro a a' b hb hb'
    rw [Option.mem_def, findPair2_some hp.nodup2] at hb hb'
    rw [← hb.2, ← hb'.2]
  · rw [List.mem_filterMap]
    constructor
    · rintro ⟨n, _, h⟩
      exact ((findPair2_some hp.nodup2).1 h).1
    · intro hc
      exact ⟨c.2, hp.sub2 c hc, (findPair2_some hp.nodup2).2 ⟨hc, rfl⟩⟩

theorem scheme_perm (h1 : names1.Nodup) (h2 : names2.Nodup) (hp : Pairs names1 names2 cs)
    (free1 free2 : List ν) : (scheme cs names1 names2 free1 free2).common.Perm cs := by
  have a := fit1_perm h1 hp
  have b := fit2_perm h2 hp
  unfold scheme
  repeat' split
  all_goals first | exact a | exact b

theorem Pairs.perm (h : Pairs names1 names2 cs) {cs' : List (ν × ν)} (hp : cs'.Perm cs) :
    Pairs names1 names2 cs' :=
  ⟨(hp.map _).nodup_iff.2 h.nodup1, (hp.map _).nodup_iff.2 h.nodup2,
    fun c hc => h.sub1 c (hp.mem_iff.1 hc), fun c hc => h.sub2 c (hp.mem_iff.1 hc)⟩

theorem mem_others {names K : List ν} {n : ν} : n ∈ others names K ↔ n ∈ names ∧ n ∉ K := by
  unfold others
  rw [List.mem_filter, decide_eq_true_eq]

theorem others_perm {names K : List ν} (hn : names.Nodup) (hK : K.Nodup) (hs : ∀ n ∈ K, n ∈ names) :
    names.Perm (others names K ++ K) := by
  refine (List.perm_ext_iff_of_nodup hn ?_).2 fun n => ?_
  · rw [List.nodup_append]
    refine ⟨hn.filter _, hK, fun x hx y hy => ?_⟩
    rintro rfl
    exact (mem_others.1 hx).2 hy
  · rw [List.mem_append, mem_others]
    constructor
    · intro h
      by_cases hk : n ∈ K
      · exact Or.inr hk
      · exact Or.inl ⟨h, hk⟩
    · rintro (h | h)
      · exact h.1
      · exact hs n h

theorem others_congr {names K K' : List ν} (hp : K.Perm K') : others names K = others names K' := by
  unfold others
  refine List.filter_congr fun n _ => ?_
  simp only [hp.mem_iff]

theorem free1_eq (cs : List (ν × ν)) (names : List ν) :
    (names.filter fun n => (findPair1 cs n).isNone) = others names (cs.map Prod.fst) :=
  List.filter_congr fun _ _ => findPair1_none

theorem free2_eq (cs : List (ν × ν)) (names : List ν) :
    (names.filter fun n => (findPair2 cs n).isNone) = others names (cs.map Prod.snd) :=
  List.filter_congr fun _ _ => findPair2_none

theorem Pairs.split1 (h : Pairs names1 names2 cs) (hn : names1.Nodup) :
    names1.Perm (others names1 (cs.map Prod.fst) ++ cs.map Prod.fst) :=
  others_perm hn h.nodup1 fun n hn => by
    obtain ⟨c, hc, rfl⟩ := List.mem_map.1 hn
    exact h.sub1 c hc

theorem Pairs.split2 (h : Pairs names1 names2 cs) (hn : names2.Nodup) :
    names2.Perm (others names2 (cs.map Prod.snd) ++ cs.map Prod.snd) :=
  others_perm hn h.nodup2 fun n hn => by
    obtain ⟨c, hc, rfl⟩ := List.mem_map.1 hn
    exact h.sub2 c hc

section edges
variable [TatSym σ]

theorem zip_named' {t : Tensor ν σ α} (h : Shaped t) :
    t.names.zip t.core.edges = t.names.map fun n => (n, edgeOf t n) := by
  rw [edges_named' h]
  induction t.names with
  | nil => rfl
  | cons n ns ih => rw [List.map_cons, List.map_cons, List.zip_cons_cons, ih]

theorem zip_named {t : Tensor ν σ α} (h : WF t) :
    t.names.zip t.core.edges = t.names.map fun n => (n, edgeOf t n) :=
  zip_named' h.shaped

theorem mem_reversedNames {t : Tensor ν σ α} (h : Shaped t) {free : List ν} {out : Bool} {n : ν} :
    n ∈ reversedNames free out t ↔ TatSym.isFermi σ = true ∧ n ∈ t.names ∧
      (if n ∈ free then (edgeOf t n).arrow else decide ((edgeOf t n).arrow = out)) = true := by
  unfold reversedNames
  split
  · rename_i hf
    rw [zip_named' h, List.mem_map]
    constructor
    · rintro ⟨x, hx, rfl⟩
      obtain ⟨h1, h2⟩ := List.mem_filter.1 hx
      obtain ⟨m, hm, rfl⟩ := List.mem_map.1 h1
      exact ⟨hf, hm, h2⟩
    · rintro ⟨_, h1, h2⟩
      exact ⟨(n, edgeOf t n), List.mem_filter.2 ⟨List.mem_map.2 ⟨n, h1, rfl⟩, h2⟩, rfl⟩
  · rename_i hf
    simp [hf]

theorem mem_reversedFree {t : Tensor ν σ α} (h : Shaped t) {free : List ν} {n : ν} :
    n ∈ reversedFree free t ↔ TatSym.isFermi σ = true ∧ n ∈ t.names ∧ n ∈ free ∧
      (edgeOf t n).arrow = true := by
  unfold reversedFree
  split
  · rename_i hf
    rw [zip_named' h, List.mem_map]
    constructor
    · rintro ⟨x, hx, rfl⟩
      obtain ⟨h1, h2⟩ := List.mem_filter.1 hx
      obtain ⟨m, hm, rfl⟩ := List.mem_map.1 h1
      simp only [Bool.and_eq_true, decide_eq_true_eq] at h2
      exact ⟨hf, hm, h2⟩
    · rintro ⟨_, h1, h2⟩
      exact ⟨(n, edgeOf t n), List.mem_filter.2 ⟨List.mem_map.2 ⟨n, h1, rfl⟩, by
        simpa using h2⟩, rfl⟩
  · rename_i hf
    simp [hf]

theorem splitParts_eq {t : Tensor ν σ α} (h : Shaped t) (K : List ν) :
    splitParts (others t.names K) t = (others t.names K).map fun n => (n, mapOf t n) := by
  unfold splitParts
  rw [zip_named' h]
  have : ∀ l : List ν, (∀ n ∈ l, n ∈ t.names) →
      ((l.map fun n => (n, edgeOf t n)).filter fun x => decide (x.1 ∈ others t.names K)).map
        (fun x => (x.1, x.2.map)) = (others l K).map fun n => (n, mapOf t n) := by
    intro l hl
    rw [List.filter_map, List.map_map]
    unfold others
    congr 1
    refine List.filter_congr fun n hn => ?_
    simp only [Function.comp, List.mem_filter, decide_eq_true_eq, hl n hn, true_and]
  exact this _ fun _ hn => hn

theorem edgeAt_eq {t : Tensor ν σ α} (h : Shaped t) {n : ν} (hn : n ∈ t.names) :
    edgeAt t n = .ok (edgeOf t n) := by
  obtain ⟨i, hi, rfl⟩ := List.mem_iff_getElem.1 hn
  unfold edgeAt
  have h1 := (C09_name_to_index t.names h.nodup t.names[i] i).2 (List.getElem?_eq_getElem hi)
  rw [h1]
  dsimp only
  have : t.core.edges[i]? = some (edgeOf t t.names[i]) := by
    rw [edges_named' h, List.getElem?_map, List.getElem?_eq_getElem hi]; rfl
  rw [this]

/-- Contracted edges have opposite symmetries with the same dimensions, and opposite arrows. -/
structure Matched (t1 t2 : Tensor ν σ α) (cs : List (ν × ν)) : Prop where
  arrows : TatSym.isFermi σ = true → ∀ c ∈ cs, (edgeOf t1 c.1).arrow ≠ (edgeOf t2 c.2).arrow
  maps : ∀ c ∈ cs, ∀ s, OMap.find? (mapOf t1 c.1) s = OMap.find? (mapOf t2 c.2) (-s)

/-- Combinations of symmetries of the edges `ns` with the same total are the same combination.  Holds
for at most one edge, and when at most one edge has several symmetries. -/
def Separated (t : Tensor ν σ α) (ns : List ν) : Prop :=
  ∀ p q : ν → σ, (∀ n ∈ ns, p n ∈ OMap.keys (mapOf t n)) → (∀ n ∈ ns, q n ∈ OMap.keys (mapOf t n)) →
    (ns.map p).sum = (ns.map q).sum → ∀ n ∈ ns, p n = q n

theorem Separated.perm {t : Tensor ν σ α} {l l' : List ν} (h : Separated t l) (hp : l'.Perm l) :
    Separated t l' := by
  intro p q h1 h2 hs n hn
  refine h p q (fun n hn => h1 n (hp.mem_iff.2 hn)) (fun n hn => h2 n (hp.mem_iff.2 hn)) ?_ n
    (hp.mem_iff.1 hn)
  rw [← (hp.map p).sum_eq, hs, (hp.map q).sum_eq]

theorem Separated.le_one {t : Tensor ν σ α} {l : List ν} (h : l.length ≤ 1) : Separated t l := by
  intro p q _ _ hs n hn
  match l, h with
  | [m], _ =>
    rw [List.mem_singleton] at hn
    subst hn
    simpa using hs

theorem Separated.single {t : Tensor ν σ α} {l : List ν}
    (h : ∀ n ∈ l, ∃ s, OMap.keys (mapOf t n) = [s]) : Separated t l := by
  intro p q hp hq _ n hn
  obtain ⟨s, hs⟩ := h n hn
  have h1 := hp n hn
  have h2 := hq n hn
  rw [hs, List.mem_singleton] at h1 h2
  rw [h1, h2]

theorem deleteUnused_nil {this other : Edge σ} (hs : OMap.Sorted this.map) (name : ν)
    (ha : TatSym.isFermi σ = true → this.arrow ≠ other.arrow)
    (hm : ∀ s, OMap.find? this.map s = OMap.find? other.map (-s)) :
    deleteUnused this other name [] = .ok [] := by
  unfold deleteUnused
  rw [if_neg (by
    rw [Bool.and_eq_true, decide_eq_true_eq]
    rintro ⟨h1, h2⟩
    exact ha h1 h2)]
  have : ∀ l : List (σ × ℕ), (∀ x ∈ l, OMap.find? other.map (-x.1) = some x.2) →
      l.foldlM (deleteStep other) [] = (.ok [] : Outcome (List (σ × ℕ))) := by
    intro l
    induction l with
    | nil => intro _; rfl
    | cons x l ih =>
      intro h
      rw [List.foldlM_cons]
      have : deleteStep other [] x = .ok [] := by
        unfold deleteStep
        rw [h x (by simp)]
        simp
      rw [this]
      exact ih fun y hy => h y (by simp [hy])
  rw [this _ fun x hx => by rw [← hm]; exact OMap.find?_of_mem hs.nodup hx]
  rfl

theorem deletePairs_nil {t1 t2 : Tensor ν σ α} (h1 : Shaped t1) (h2 : Shaped t2) {cs : List (ν × ν)}
    (hp : Pairs t1.names t2.names cs) (hm : Matched t1 t2 cs) :
    cs.foldlM (deletePair t1 t2) ([], []) = .ok ([], []) := by
  have : ∀ l : List (ν × ν), (∀ c ∈ l, c ∈ cs) →
      l.foldlM (deletePair t1 t2) ([], []) = .ok ([], []) := by
    intro l
    induction l with
    | nil => intro _; rfl
    | cons c l ih =>
      intro h
      have hc := h c (by simp)
      rw [List.foldlM_cons]
      have : deletePair t1 t2 ([], []) c = .ok ([], []) := by
        unfold deletePair
        rw [edgeAt_eq h1 (hp.sub1 c hc), edgeAt_eq h2 (hp.sub2 c hc)]
        dsimp only [Outcome.bind]
        rw [deleteUnused_nil (mapOf_sorted' h1 _ (hp.sub1 c hc)) _ (fun hf => hm.arrows hf c hc)
          (hm.maps c hc)]
        dsimp only [Outcome.bind]
        rw [deleteUnused_nil (mapOf_sorted' h2 _ (hp.sub2 c hc)) _
          (fun hf => (hm.arrows hf c hc).symm) (fun s => by
            have := hm.maps c hc (-s)
            rw [neg_neg] at this
            exact this.symm)]
      rw [this]
      exact ih fun d hd => h d (by simp [hd])
  exact this cs fun _ h => h

theorem Matched.perm {t1 t2 : Tensor ν σ α} {cs cs' : List (ν × ν)} (h : Matched t1 t2 cs)
    (hp : cs'.Perm cs) : Matched t1 t2 cs' :=
  ⟨fun hf c hc => h.arrows hf c (hp.mem_iff.1 hc), fun c hc => h.maps c (hp.mem_iff.1 hc)⟩

end edges

/-! ## the two merges -/

section merges
variable [TatSym σ]

theorem find_two {β : Type} {x y : ν} (h : x ≠ y) (u v : β) :
    OMap.find? (OMap.ofList [(x, u), (y, v)]) x = some u ∧
    OMap.find? (OMap.ofList [(x, u), (y, v)]) y = some v := by
  unfold OMap.ofList
  simp only [List.foldl_cons, List.foldl_nil]
  constructor
  · rw [OMap.find?_set, if_neg h, OMap.find?_set, if_pos rfl]
  · rw [OMap.find?_set, if_pos rfl]

theorem opM_args1 {cn : ContractNames ν} (hcn : cn.c1 ≠ cn.c2) (reversed free common : List ν)
    (right : Bool) (cut : List (ν × List (σ × ℕ))) :
    opM (mergeArgs1 cn reversed free common right cut) = pairOf right free common := by
  obtain ⟨h1, h2⟩ := find_two hcn free common
  unfold opM mergeGroups mergeArgs1 pairOf
  cases right <;> simp [h1, h2]

theorem opM_args2 {cn : ContractNames ν} (hcn : cn.c1 ≠ cn.c2) (reversed free common : List ν)
    (right : Bool) (cut : List (ν × List (σ × ℕ))) :
    opM (mergeArgs2 cn reversed free common right cut) = pairOf right free common := by
  obtain ⟨h1, h2⟩ := find_two (Ne.symm hcn) free common
  unfold opM mergeGroups mergeArgs2 pairOf
  cases right <;> simp [h1, h2]

theorem pairOf_flatten_perm (right : Bool) (A B : List ν) :
    (A ++ B).Perm (pairOf right A B).flatten := by
  unfold pairOf
  cases right
  · simpa using List.perm_append_comm
  · simp

theorem gather1 {t : Tensor ν σ α} (h : Shaped t) {cn : ContractNames ν} (hcn : cn.c1 ≠ cn.c2)
    (reversed : List ν) {free common : List ν} (right : Bool)
    (hp : t.names.Perm (free ++ common)) :
    Gather t (mergeArgs1 cn reversed free common right []) where
  rename := rfl
  split := rfl
  cut := rfl
  wf := h
  pruned := fun he => by
    have := (find_two hcn free common).1
    unfold mergeArgs1 at he
    dsimp only at he
    rw [he] at this
    cases this
  newNodup := by
    unfold mergeArgs1
    cases right <;> simp [hcn, Ne.symm hcn]
  perm := by
    rw [opM_args1 hcn]
    exact hp.trans (pairOf_flatten_perm _ _ _)

theorem gather2 {t : Tensor ν σ α} (h : Shaped t) {cn : ContractNames ν} (hcn : cn.c1 ≠ cn.c2)
    (reversed : List ν) {free common : List ν} (right : Bool)
    (hp : t.names.Perm (free ++ common)) :
    Gather t (mergeArgs2 cn reversed free common right []) where
  rename := rfl
  split := rfl
  cut := rfl
  wf := h
  pruned := fun he => by
    have := (find_two (Ne.symm hcn) free common).1
    unfold mergeArgs2 at he
    dsimp only at he
    rw [he] at this
    cases this
  newNodup := by
    unfold mergeArgs2
    cases right <;> simp [hcn, Ne.symm hcn]
  perm := by
    rw [opM_args2 hcn]
    exact hp.trans (pairOf_flatten_perm _ _ _)

theorem prod_reverseOf_false (odd : ν → Bool) (groups : List (List ν)) (f : List ν → ν → Bool)
    (h : ∀ g n, f g n = false) :
    (groups.map fun g => reverseOf odd (f g) g).prod = 1 := by
  apply List.prod_eq_one
  intro x hx
  obtain ⟨g, _, rfl⟩ := List.mem_map.1 hx
  have : f g = fun _ => false := funext (h g)
  rw [this, reverseOf_false]

/-- The sign of merging the second tensor. -/
theorem sign2 {t : Tensor ν σ α} (h : Shaped t) {cn : ContractNames ν} (hcn : cn.c1 ≠ cn.c2)
    (reversed : List ν) {free common : List ν} (right : Bool)
    (hp : t.names.Perm (free ++ common)) (hf : TatSym.isFermi σ = true) (p : ν → σ × ℕ) :
    opSign t (mergeArgs2 cn reversed free common right []) p =
      exchangeOf (oddAt p) t.names (pairOf right free common).flatten := by
  have hg := gather2 h hcn reversed right hp
  unfold opSign
  rw [if_pos hf, hg.opS, flatten_singletons, opM_args2 hcn,
    groupsOf_short _ _ _ (by simp)]
  have e1 : (fun n => decide (n ∈ (mergeArgs2 cn reversed free common right
        ([] : List (ν × List (σ × ℕ)))).reversed) &&
      marked (mergeArgs2 cn reversed free common right ([] : List (ν × List (σ × ℕ)))).applyParity
        (mergeArgs2 cn reversed free common right ([] : List (ν × List (σ × ℕ)))).excludeReverse n) =
      fun _ => false := by
    funext n
    simp [mergeArgs2, marked]
  have e2 := prod_reverseOf_false (oddAt p) (pairOf right free common) (fun g n =>
    flipped (opReversed t (mergeArgs2 cn reversed free common right [])) g n &&
      marked (mergeArgs2 cn reversed free common right ([] : List (ν × List (σ × ℕ)))).applyParity
        (mergeArgs2 cn reversed free common right
          ([] : List (ν × List (σ × ℕ)))).excludeReverseMerge n) (by
    intro g n
    simp [mergeArgs2, marked])
  rw [e2]
  have e3 : groupsOf (oddAt p) (pairOf right free common)
      ((mergeArgs2 cn reversed free common right ([] : List (ν × List (σ × ℕ)))).newNames.map
        (marked (mergeArgs2 cn reversed free common right
          ([] : List (ν × List (σ × ℕ)))).applyParity
          (mergeArgs2 cn reversed free common right
            ([] : List (ν × List (σ × ℕ)))).excludeMerge)) = 1 := by
    unfold mergeArgs2 pairOf groupsOf marked
    cases right <;> simp
  rw [e3]
  rw [e1, reverseOf_false]
  simp

theorem reverseOf_eq_prod (odd chosen : ν → Bool) {A B : List ν} (h : A.Perm B) :
    reverseOf odd chosen A = reverseOf odd chosen B := by
  unfold reverseOf
  exact (h.map _).prod_eq

/-- The sign of merging the first tensor. -/
theorem sign1 {t : Tensor ν σ α} (h : Shaped t) {cn : ContractNames ν} (hcn : cn.c1 ≠ cn.c2)
    {free common : List ν} (right : Bool)
    (hp : t.names.Perm (free ++ common)) (hf : TatSym.isFermi σ = true) (p : ν → σ × ℕ) :
    opSign t (mergeArgs1 cn (reversedNames free false t) free common right []) p =
      exchangeOf (oddAt p) t.names (pairOf right free common).flatten *
      (common.map fun n => if (edgeOf t n).arrow = false ∧ oddAt p n = true then -1 else 1).prod *
      reversalSign (common.map (oddAt p)) := by
  have hg := gather1 h hcn (reversedNames free false t) right hp
  have hnd : (free ++ common).Nodup := hp.nodup_iff.1 h.nodup
  have hdis : ∀ n ∈ common, n ∉ free := by
    intro n hn hn'
    exact (List.nodup_append.1 hnd).2.2 n hn' n hn rfl
  unfold opSign
  rw [if_pos hf, hg.opS, flatten_singletons, opM_args1 hcn,
    groupsOf_short _ _ _ (by simp)]
  have e1 : reverseOf (oddAt p)
      (fun n => decide (n ∈ (mergeArgs1 cn (reversedNames free false t) free common right
        ([] : List (ν × List (σ × ℕ)))).reversed) &&
      marked (mergeArgs1 cn (reversedNames free false t) free common right
        ([] : List (ν × List (σ × ℕ)))).applyParity
        (mergeArgs1 cn (reversedNames free false t) free common right
          ([] : List (ν × List (σ × ℕ)))).excludeReverse n) t.names =
      (common.map fun n => if (edgeOf t n).arrow = false ∧ oddAt p n = true then -1 else 1).prod := by
    rw [reverseOf_eq_prod _ _ hp]
    unfold reverseOf
    rw [List.map_append, List.prod_append]
    have a1 : (free.map fun n => if (decide (n ∈ (mergeArgs1 cn (reversedNames free false t) free
        common right ([] : List (ν × List (σ × ℕ)))).reversed) &&
      marked (mergeArgs1 cn (reversedNames free false t) free common right
        ([] : List (ν × List (σ × ℕ)))).applyParity
        (mergeArgs1 cn (reversedNames free false t) free common right
          ([] : List (ν × List (σ × ℕ)))).excludeReverse n) = true ∧ oddAt p n = true
      then (-1 : ℤ) else 1).prod = 1 := by
      apply List.prod_eq_one
      intro x hx
      obtain ⟨n, hn, rfl⟩ := List.mem_map.1 hx
      have : n ∉ common := fun hc => hdis n hc hn
      simp [mergeArgs1, marked, this]
    rw [a1, one_mul]
    congr 1
    refine List.map_congr_left fun n hn => ?_
    have h1 : n ∈ t.names := hp.mem_iff.2 (List.mem_append_right _ hn)
    have h2 := mem_reversedNames h (free := free) (out := false) (n := n)
    rw [if_neg (hdis n hn)] at h2
    simp only [mergeArgs1, marked, hn, decide_true, Bool.and_true, if_false, Bool.false_eq_true,
      decide_eq_true_eq, h2, hf, h1, true_and]
  rw [e1]
  have e2 := prod_reverseOf_false (oddAt p) (pairOf right free common) (fun g n =>
    flipped (opReversed t (mergeArgs1 cn (reversedNames free false t) free common right [])) g n &&
      marked (mergeArgs1 cn (reversedNames free false t) free common right
        ([] : List (ν × List (σ × ℕ)))).applyParity
        (mergeArgs1 cn (reversedNames free false t) free common right
          ([] : List (ν × List (σ × ℕ)))).excludeReverseMerge n) (by
    intro g n
    simp [mergeArgs1, marked])
  rw [e2]
  have e3 : groupsOf (oddAt p) (pairOf right free common)
      ((mergeArgs1 cn (reversedNames free false t) free common right
        ([] : List (ν × List (σ × ℕ)))).newNames.map
        (marked (mergeArgs1 cn (reversedNames free false t) free common right
          ([] : List (ν × List (σ × ℕ)))).applyParity
          (mergeArgs1 cn (reversedNames free false t) free common right
            ([] : List (ν × List (σ × ℕ)))).excludeMerge)) = reversalSign (common.map (oddAt p)) := by
    unfold mergeArgs1 pairOf groupsOf marked
    cases right <;> simp [hcn]
  rw [e3]
  simp

end merges

end TAT
