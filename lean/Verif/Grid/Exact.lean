import Verif.Grid.Lines
import Verif.Square.ExactNames

/-!
# Helper lemmas: `get_exact` of `examples/OBC.cpp`
-/

namespace TAT.Grid

set_option linter.unusedSectionVars false
set_option linter.unusedSimpArgs false

/-! ## names with numbers -/

/-- A direction, perhaps with a number. -/
abbrev Lab := Side × Option ℕ

/-- The string of a label. -/
def labText : Lab → String
  | (x, none) => sides x
  | (x, some k) => numbered (sides x) k

theorem takeWhile_letters {a b : List Char} (ha : ∀ c ∈ a, c.isDigit = false) (hb : ∀ c ∈ b, c.isDigit = true) :
    (a ++ b).takeWhile (fun c => !c.isDigit) = a := by
  induction a with
  | nil =>
    cases b with
    | nil => rfl
    | cons c b => simp [hb c (by simp)]
  | cons c a ih =>
    rw [List.cons_append, List.takeWhile_cons, ha c (by simp)]
    simp only [Bool.not_false, if_true]
    rw [ih fun c hc => ha c (by simp [hc])]

/-- The digits of a label. -/
def labDigits : Option ℕ → List Char
  | none => []
  | some k => Nat.toDigits 10 k

theorem labText_toList (g : Lab) : (labText g).toList = (sides g.1).toList ++ labDigits g.2 := by
  obtain ⟨x, o⟩ := g
  cases o with
  | none => simp [labText, labDigits]
  | some k => rw [labText, numbered, numberString_toList, labDigits]

theorem labDigits_digit {o : Option ℕ} {c : Char} (h : c ∈ labDigits o) : c.isDigit = true := by
  cases o with
  | none => simp [labDigits] at h
  | some k => exact Nat.isDigit_of_mem_toDigits (by decide) (by decide) h

theorem sides_letters (x : Side) : ∀ c ∈ (sides x).toList, c.isDigit = false := by
  cases x <;> decide +kernel

theorem labText_injective : Function.Injective labText := by
  rintro ⟨x, o⟩ ⟨x', o'⟩ h
  have h := congrArg String.toList h
  rw [labText_toList, labText_toList] at h
  have h1 := congrArg (List.takeWhile fun c => !c.isDigit) h
  rw [takeWhile_letters (sides_letters _) fun c => labDigits_digit,
    takeWhile_letters (sides_letters _) fun c => labDigits_digit] at h1
  have hx : x = x' := by
    have h1 : (sides x).toList = (sides x').toList := h1
    clear h
    revert h1
    cases x <;> cases x' <;> decide +kernel
  subst hx
  have h2 := List.append_cancel_left h
  have ho : o = o' := by
    cases o <;> cases o'
    · rfl
    · exact absurd h2.symm Nat.toDigits_ne_nil
    · exact absurd h2 Nat.toDigits_ne_nil
    · exact congrArg some (toDigits_inj h2)
  rw [ho]

variable {ν α β : Type} [LinearOrder ν] [Field α] [LinearOrder β] [Zero β] {e : AuxEnv ν α β}

/-- The name of a label. -/
def labName (nm : String → ν) (g : Lab) : ν := nm (labText g)

/-! ## one site more -/

/-- The edges after `j` sites of row `i`. -/
def exactLegs (L : ℕ) (h v : ℕ → ℕ → Option ℕ) (i j : ℕ) : Lab → Option ℕ
  | (.right, some i') => if i' = i then h i j else none
  | (.down, some k) => if k < L then (if k < j then v (i + 1) k else v i k) else none
  | _ => none

/-- The edges of a site of the lattice. -/
def gridLegs (l r u d : Option ℕ) : Lab → Option ℕ
  | (.left, none) => l
  | (.right, none) => r
  | (.up, none) => u
  | (.down, none) => d
  | _ => none

/-- The edges of a site with numbers. -/
def movedLegs (i j : ℕ) (l r u d : Option ℕ) : Lab → Option ℕ
  | (.left, some k) => if k = i then l else none
  | (.right, some k) => if k = i then r else none
  | (.up, some k) => if k = j then u else none
  | (.down, some k) => if k = j then d else none
  | _ => none

/-- The new names of the edges. -/
def moves (i j : ℕ) : List (Lab × Lab) :=
  [((.up, none), (.up, some j)), ((.down, none), (.down, some j)), ((.left, none), (.left, some i)),
    ((.right, none), (.right, some i))]

theorem IsSite.grid (he : GridEnvOk e sides) {t : Tensor ν NoSymmetry α} {l r u d : Option ℕ}
    (h : IsSite e.nm sides t l r u d) : HasLegs (labName e.nm) t (gridLegs l r u d) ∧
      ∀ f, gval (labName e.nm) t f =
        elem e.nm sides t (f (.left, none)) (f (.right, none)) (f (.up, none)) (f (.down, none)) := by
  have hι : Function.Injective (labName e.nm) := he.inj.comp labText_injective
  have h1 : HasLegs (labName e.nm) t (gridLegs l r u d) := by
    refine ⟨h.dense, fun n hn => ?_, ?_⟩
    · obtain ⟨x, rfl⟩ := h.only n hn
      exact ⟨(x, none), rfl⟩
    rintro ⟨x, o⟩
    cases o with
    | none =>
      cases x
      · exact h.up
      · exact h.down
      · exact h.left
      · exact h.right
    | some k =>
      have : gleg (labName e.nm) t (x, some k) = none := by
        by_contra hne
        obtain ⟨g, hg⟩ := h.only _ hne
        have := hι (show labName e.nm (x, some k) = labName e.nm (g, none) from hg)
        simp at this
      rw [this]
      cases x <;> rfl
  refine ⟨h1, fun f => ?_⟩
  have hinj : ∀ x y, e.nm (sides x) = e.nm (sides y) ↔ x = y := fun x y => by
    have := hι.eq_iff (a := (x, none)) (b := (y, none))
    simp only [Prod.mk.injEq, and_true] at this
    exact this
  rw [elem, val_eq_gval hι h1]
  refine gval_congr hι h1 ?_
  rintro ⟨x, o⟩ hne
  cases o with
  | none =>
    show f (x, none) = at4 e.nm sides _ _ _ _ (e.nm (sides x))
    cases x <;> simp [at4, hinj]
  | some k => cases x <;> exact absurd rfl hne

theorem exactStep_ok (he : GridEnvOk e sides) {L : ℕ} {site : ℕ → ℕ → Tensor ν NoSymmetry α}
    {h v : ℕ → ℕ → Option ℕ} (hg : IsGrid e.nm L site h v) {i j : ℕ} (hi : i < L) (hj : j < L)
    {r : Tensor ν NoSymmetry α} {F : ℕ → (ℕ → ℕ) → α} (hr : HasLegs (labName e.nm) r (exactLegs L h v i j))
    (hF : ∀ f, gval (labName e.nm) r f = F (f (.right, some i)) fun k => f (.down, some k)) :
    ∃ r', exactStep e site r (i, j) = .ok r' ∧ HasLegs (labName e.nm) r' (exactLegs L h v i (j + 1)) ∧
      ∀ f, gval (labName e.nm) r' f =
        ∑ a ∈ Finset.range (bondDim (h i j)), ∑ b ∈ Finset.range (bondDim (v i j)),
          F a (Function.update (fun k => f (.down, some k)) j b) *
          elem e.nm sides (site i j) a (f (.right, some i)) b (f (.down, some j)) := by
  have hι : Function.Injective (labName e.nm) := he.inj.comp labText_injective
  obtain ⟨s1, s2⟩ := IsSite.grid he ((hg.row i hi).site j hj)
  obtain ⟨m1, m2⟩ := label_rename hι s1 (moves i j) (by simp [moves]) (by simp [moves]) (by simp [moves, gridLegs])
  have m1 : HasLegs (labName e.nm) (edgeRename (site i j) (OMap.ofList ((moves i j).map fun p =>
      (labName e.nm p.1, labName e.nm p.2)))) (movedLegs i j (h i j) (h i (j + 1)) (v i j) (v (i + 1) j)) := by
    refine ⟨m1.dense, m1.only, fun g => (m1.legs g).trans ?_⟩
    obtain ⟨x, o⟩ := g
    cases o with
    | none => cases x <;> simp [renameLegs, moves, gridLegs, movedLegs]
    | some k =>
      by_cases h1 : i = k
      · by_cases h2 : j = k
        · cases x <;> simp [renameLegs, moves, gridLegs, movedLegs, h1, h2]
        · have h2' : ¬ k = j := fun h => h2 h.symm
          cases x <;> simp [renameLegs, moves, gridLegs, movedLegs, h1, h2, h2']
      · have h1' : ¬ k = i := fun h => h1 h.symm
        by_cases h2 : j = k
        · cases x <;> simp [renameLegs, moves, gridLegs, movedLegs, h1, h1', h2]
        · have h2' : ¬ k = j := fun h => h2 h.symm
          cases x <;> simp [renameLegs, moves, gridLegs, movedLegs, h1, h1', h2, h2']
  obtain ⟨r', c1, c2, c3⟩ := label_contract hι e.ce he.gemm he.names hr m1
    [((.right, some i), (.left, some i)), ((.down, some j), (.up, some j))] (by simp) (by simp)
    (by simp [exactLegs, movedLegs, hj]) (by
      rintro ⟨x, o⟩ h1 h2
      cases o with
      | none => left; cases x <;> rfl
      | some k => cases x <;> simp_all [exactLegs, movedLegs])
  refine ⟨r', ?_, ⟨c2.dense, c2.only, fun g => (c2.legs g).trans ?_⟩, fun f => ?_⟩
  · exact c1
  · obtain ⟨x, o⟩ := g
    cases o with
    | none => cases x <;> simp [contractLegs, exactLegs, movedLegs]
    | some k =>
      cases x
      · by_cases hk : k = j <;> simp [contractLegs, exactLegs, movedLegs, hk]
      · by_cases hk : k = j
        · subst hk
          simp [contractLegs, exactLegs, movedLegs, hj]
        · have h1 : k < j + 1 ↔ k < j := by omega
          simp [contractLegs, exactLegs, movedLegs, hk, h1]
      · by_cases hk : k = i <;> simp [contractLegs, exactLegs, movedLegs, hk]
      · by_cases hk : k = i
        · subst hk
          simp [contractLegs, exactLegs, movedLegs]
        · simp [contractLegs, exactLegs, movedLegs, hk]
  · rw [c3]
    simp only [sumPairs]
    refine Finset.sum_congr (by simp [exactLegs, bondDim]) fun a _ =>
      Finset.sum_congr (by simp [exactLegs, bondDim, hj]) fun b _ => ?_
    rw [hF, m2, s2]
    have q : ∀ x, renameTo (moves i j) (x, none) = (x, some (match x with | .up => j | .down => j | .left => i | .right => i)) := by
      intro x
      cases x <;> simp [renameTo, moves]
    rw [q, q, q, q]
    congr 1
    · congr 1
      · simp [Function.update_apply]
      · funext k
        simp [Function.update_apply]
    · simp [Function.update_apply]

/-! ## the sums -/

/-- The value after `j` sites of a row, `P` is that of the rows before. -/
def part (h v : ℕ → ℕ) (S : ℕ → ℕ → ℕ → ℕ → ℕ → α) (P : (ℕ → ℕ) → α) : ℕ → ℕ → (ℕ → ℕ) → α
  | 0, _, y => P y
  | j + 1, x, y => ∑ a ∈ Finset.range (h j), ∑ b ∈ Finset.range (v j),
      part h v S P j a (Function.update y j b) * S j a x b (y j)

theorem sum_box_snoc (v : ℕ → ℕ) (j : ℕ) (F : (Fin (j + 1) → ℕ) → α) :
    ∑ q ∈ box (j + 1) v, F q = ∑ b ∈ Finset.range (v j), ∑ q ∈ box j v, F (Fin.snoc q b : Fin (j + 1) → ℕ) := by
  rw [← Finset.sum_product']
  refine Finset.sum_nbij' (fun q => (q (Fin.last j), fun k => q k.castSucc)) (fun p => (Fin.snoc p.2 p.1 : Fin (j + 1) → ℕ)) ?_ ?_ ?_ ?_ ?_
  · intro q hq
    simp only [box, Fintype.mem_piFinset, Finset.mem_range, Finset.mem_product] at hq ⊢
    exact ⟨by simpa using hq (Fin.last j), fun k => by simpa using hq k.castSucc⟩
  · rintro ⟨b, q⟩ hq
    simp only [box, Fintype.mem_piFinset, Finset.mem_range, Finset.mem_product] at hq ⊢
    intro k
    refine Fin.lastCases ?_ (fun k => ?_) k
    · simpa using hq.1
    · simpa using hq.2 k
  · intro q _
    funext k
    refine Fin.lastCases ?_ (fun k => ?_) k <;> simp
  · rintro ⟨b, q⟩ _
    simp
  · intro q _
    congr 1
    funext k
    refine Fin.lastCases ?_ (fun k => ?_) k <;> simp

theorem part_eq (h v : ℕ → ℕ) (S : ℕ → ℕ → ℕ → ℕ → ℕ → α) (P : (ℕ → ℕ) → α) (j x : ℕ) (y : ℕ → ℕ) :
    part h v S P j x y = ∑ q ∈ box j v, P (fun k => if k < j then allIdx q k else y k) *
      chainTo (fun k => Finset.range (h k)) (fun k a b => S k a b (allIdx q k) (y k)) j x := by
  induction j generalizing x y with
  | zero =>
    rw [part, box, Fintype.piFinset_of_isEmpty, Finset.univ_unique, Finset.sum_singleton]
    simp [chainTo]
  | succ j ih =>
    rw [part, sum_box_snoc, Finset.sum_comm]
    refine Finset.sum_congr rfl fun b _ => ?_
    simp only [ih, Finset.sum_mul]
    rw [Finset.sum_comm]
    refine Finset.sum_congr rfl fun q _ => ?_
    rw [chainTo, Finset.mul_sum]
    refine Finset.sum_congr rfl fun a _ => ?_
    have hq : ∀ k < j, allIdx (Fin.snoc q b : Fin (j + 1) → ℕ) k = allIdx q k := fun k hk => by
      have := Fin.snoc_castSucc (α := fun _ : Fin (j + 1) => ℕ) b q ⟨k, hk⟩
      rw [allIdx, allIdx, dif_pos (by omega : k < j + 1), dif_pos hk]
      exact this
    have hl : allIdx (Fin.snoc q b : Fin (j + 1) → ℕ) j = b := by
      have := Fin.snoc_last (α := fun _ : Fin (j + 1) => ℕ) b q
      rw [allIdx, dif_pos (by omega : j < j + 1)]
      exact this
    have h1 : (fun k => if k < j then allIdx q k else Function.update y j b k) =
        fun k => if k < j + 1 then allIdx (Fin.snoc q b : Fin (j + 1) → ℕ) k else y k := by
      funext k
      rcases lt_trichotomy k j with hk | rfl | hk
      · rw [if_pos hk, if_pos (by omega), hq k hk]
      · rw [if_neg (by omega), if_pos (by omega), hl, Function.update_self]
      · rw [if_neg (by omega), if_neg (by omega), Function.update_of_ne (by omega)]
    have h2 : chainTo (fun k => Finset.range (h k)) (fun k a b' => S k a b' (allIdx q k) (Function.update y j b k)) j a =
        chainTo (fun k => Finset.range (h k))
          (fun k a b' => S k a b' (allIdx (Fin.snoc q b : Fin (j + 1) → ℕ) k) (y k)) j a := by
      refine congrFun (chainTo_congr (fun _ _ => rfl) fun k hk => ?_) _
      rw [hq k hk, Function.update_of_ne (by omega)]
    rw [h1, h2, hl, mul_assoc]

/-! ## the rows -/

theorem exactSteps_append (e : AuxEnv ν α β) (site : ℕ → ℕ → Tensor ν NoSymmetry α) (l l' : List (ℕ × ℕ))
    (r : Tensor ν NoSymmetry α) :
    exactSteps e site (l ++ l') r = (exactSteps e site l r).bind fun r => exactSteps e site l' r := by
  induction l generalizing r with
  | nil => rfl
  | cons p l ih =>
    rw [List.cons_append, exactSteps, exactSteps]
    cases exactStep e site r p with
    | ok r' => exact ih r'
    | error _ => rfl
    | ub => rfl

theorem exactRow_ok (he : GridEnvOk e sides) {L : ℕ} {site : ℕ → ℕ → Tensor ν NoSymmetry α}
    {h v : ℕ → ℕ → Option ℕ} (hg : IsGrid e.nm L site h v) {i : ℕ} (hi : i < L) {r : Tensor ν NoSymmetry α}
    {P : (ℕ → ℕ) → α} (hr : HasLegs (labName e.nm) r (exactLegs L h v i 0))
    (hP : ∀ f, gval (labName e.nm) r f = P fun k => f (.down, some k)) (j : ℕ) (hj : j ≤ L) :
    ∃ r', exactSteps e site ((List.range j).map fun j => (i, j)) r = .ok r' ∧
      HasLegs (labName e.nm) r' (exactLegs L h v i j) ∧
      ∀ f, gval (labName e.nm) r' f = part (fun j => bondDim (h i j)) (fun j => bondDim (v i j))
        (fun j => elem e.nm sides (site i j)) P j (f (.right, some i)) fun k => f (.down, some k) := by
  induction j with
  | zero => exact ⟨r, rfl, hr, hP⟩
  | succ j ih =>
    obtain ⟨r', a1, a2, a3⟩ := ih (by omega)
    obtain ⟨r'', b1, b2, b3⟩ := exactStep_ok he hg hi (by omega) a2 a3
    refine ⟨r'', ?_, b2, fun f => by rw [b3]; rfl⟩
    rw [List.range_succ, List.map_append, exactSteps_append, a1, Outcome.bind, List.map_cons, List.map_nil,
      exactSteps, b1]
    rfl

theorem exactRows_ok (he : GridEnvOk e sides) {L : ℕ} {site : ℕ → ℕ → Tensor ν NoSymmetry α}
    {h v : ℕ → ℕ → Option ℕ} (hg : IsGrid e.nm L site h v) (i : ℕ) (hi : i ≤ L) :
    ∃ r, exactSteps e site ((List.range i).flatMap fun i => (List.range L).map fun j => (i, j)) oneTensor = .ok r ∧
      HasLegs (labName e.nm) r
        (fun g => match g with | (.down, some k) => if k < L then v i k else none | _ => none) ∧
      ∀ f, gval (labName e.nm) r f = chainTo (fun i => box L fun j => bondDim (v i j))
        (fun i z y => lineVal (aliased e sides) sideString L (site i) (h i) (allIdx z) (allIdx y)) i
        fun k => f (.down, some k) := by
  have hι : Function.Injective (labName e.nm) := he.inj.comp labText_injective
  induction i with
  | zero =>
    have hl : ∀ n, leg (oneTensor : Tensor ν NoSymmetry α) n = none := fun n => leg_eq_none.2 (by simp [oneTensor])
    refine ⟨oneTensor, rfl, ⟨(oneTensor_legs (e := e) sides).dense, fun n hn => absurd (hl n) hn, fun g => ?_⟩,
      fun f => rfl⟩
    rw [gleg, hl]
    obtain ⟨x, o⟩ := g
    cases x <;> cases o <;> simp [hg.top]
  | succ i ih =>
    obtain ⟨r, a1, a2, a3⟩ := ih (by omega)
    have hi' : i < L := by omega
    have a2' : HasLegs (labName e.nm) r (exactLegs L h v i 0) := by
      refine ⟨a2.dense, a2.only, fun g => (a2.legs g).trans ?_⟩
      obtain ⟨x, o⟩ := g
      cases o <;> cases x <;> simp [exactLegs, (hg.row i hi').left]
    obtain ⟨r', b1, b2, b3⟩ := exactRow_ok he hg hi' (P := fun y => chainTo (fun i => box L fun j => bondDim (v i j))
        (fun i z y => lineVal (aliased e sides) sideString L (site i) (h i) (allIdx z) (allIdx y)) i
        fun k => y k) a2' a3 L le_rfl
    have b2' : HasLegs (labName e.nm) r'
        (fun g => match g with | (.down, some k) => if k < L then v (i + 1) k else none | _ => none) := by
      refine ⟨b2.dense, b2.only, fun g => (b2.legs g).trans ?_⟩
      obtain ⟨x, o⟩ := g
      cases o with
      | none => cases x <;> rfl
      | some k =>
        cases x
        · rfl
        · by_cases hk : k < L <;> simp [exactLegs, hk]
        · rfl
        · simp [exactLegs, (hg.row i hi').right]
    refine ⟨r', ?_, b2', fun f => ?_⟩
    · rw [List.range_succ, List.flatMap_append, exactSteps_append, a1, Outcome.bind, List.flatMap_cons,
        List.flatMap_nil, List.append_nil, b1]
    · have hz : gval (labName e.nm) r' f = gval (labName e.nm) r' (Function.update f (.right, some i) 0) := by
        refine gval_congr hι b2' ?_
        rintro ⟨x, o⟩ hne
        cases x <;> cases o <;> simp_all [Function.update_apply]
      rw [hz, b3, part_eq, chainTo]
      refine Finset.sum_congr rfl fun q _ => ?_
      congr 1
      · refine congrArg _ (funext fun k => ?_)
        show (if (k : ℕ) < L then allIdx q k else _) = q k
        rw [if_pos k.isLt, allIdx_val]
      · rw [lineVal, rowChain, chain_to, (hg.row i hi').right]
        simp only [bondDim, Option.getD_none, Finset.sum_range_one, Function.update_self]
        refine congrFun (chainTo_congr (fun _ _ => rfl) fun k hk => ?_) _
        funext a b
        rw [siteVal_elem he (((hg.row i hi').site k hk).on he), allIdx, allIdx, dif_pos hk, dif_pos hk]
        simp

theorem getExact_ok (he : GridEnvOk e sides) {L : ℕ} {site : ℕ → ℕ → Tensor ν NoSymmetry α}
    {h v : ℕ → ℕ → Option ℕ} (hg : IsGrid e.nm L site h v) :
    getExact e L site = .ok (gridValue e.nm L h v site) := by
  obtain ⟨r, a1, a2, a3⟩ := exactRows_ok he hg L le_rfl
  have hl : ∀ n, leg r n = none := fun n => by
    by_contra hn
    obtain ⟨⟨x, o⟩, rfl⟩ := a2.only n hn
    have := a2.legs (x, o)
    rw [gleg] at this
    rw [this] at hn
    cases x <;> cases o <;> simp_all [hg.bottom]
  have h0 : HasLegs (legName e.nm sideString) r fun _ => none :=
    ⟨a2.dense, fun n hn => absurd (hl n) hn, fun g => hl _⟩
  have hv : ∀ x y, val r x = val r y := fun x y => val_congr fun n hn => absurd (hl n) hn
  rw [getExact, positions, a1, Outcome.bind, only_ok h0 (fun _ => 0), gridValue_chain he hg]
  have := a3 fun _ => 0
  rw [gval] at this
  rw [gval, hv _ (Function.extend (labName e.nm) (fun _ => 0) fun _ => 0), this]

end TAT.Grid
