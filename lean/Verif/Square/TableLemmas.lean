import Verif.Square.Model
import Mathlib.Tactic.Ring
import Mathlib.Tactic.Linarith
import Mathlib.Data.List.Nodup

/-!
# Lemmas about the enumeration of configurations and the tables of elements
-/

namespace TAT

variable {K : Type}

/-! ## Configurations -/

/-- The fold of `ergodicSpin`. -/
def spinFold {M N d : ℕ} [NeZero d] (l : List (LatticeSite M N)) (c : SpinConfig M N d) (step : ℕ) :
    SpinConfig M N d × ℕ :=
  l.foldl (fun s x => (Function.update s.1 x (Fin.ofNat d s.2), s.2 / d)) (c, step)

theorem spinFold_off {M N d : ℕ} [NeZero d] (l : List (LatticeSite M N)) (c : SpinConfig M N d)
    (step : ℕ) (x : LatticeSite M N) (h : x ∉ l) : (spinFold l c step).1 x = c x := by
  induction l generalizing c step with
  | nil => rfl
  | cons y l ih =>
    rw [List.mem_cons, not_or] at h
    refine (ih _ _ h.2).trans ?_
    exact Function.update_of_ne h.1 _ _

theorem spinFold_unique {M N d : ℕ} [NeZero d] (l : List (LatticeSite M N)) (hl : l.Nodup)
    (c0 c : SpinConfig M N d) (h : ∀ x, x ∉ l → c0 x = c x) :
    ∃! step, step < d ^ l.length ∧ (spinFold l c0 step).1 = c := by
  have hd : 0 < d := Nat.pos_of_ne_zero (NeZero.ne d)
  induction l generalizing c0 with
  | nil =>
    refine ⟨0, ⟨by simp, funext fun x => h x (by simp)⟩, ?_⟩
    rintro y ⟨hy, -⟩
    simpa using hy
  | cons x l ih =>
    have hx := (List.nodup_cons.1 hl).1
    obtain ⟨s, ⟨hs, hc⟩, hu⟩ := ih (List.nodup_cons.1 hl).2 (Function.update c0 x (c x)) (by
      intro y hy
      by_cases e : y = x
      · subst e; simp
      · rw [Function.update_of_ne e]
        exact h y (by simp [e, hy]))
    refine ⟨(c x).val + d * s, ⟨?_, ?_⟩, ?_⟩
    · have := (c x).isLt
      rw [List.length_cons, pow_succ]
      calc (c x).val + d * s < d + d * s := by omega
        _ = d * (s + 1) := by ring
        _ ≤ d * d ^ l.length := Nat.mul_le_mul_left _ hs
        _ = _ := by ring
    · have e1 : Fin.ofNat d ((c x).val + d * s) = c x := by
        apply Fin.ext
        show ((c x).val + d * s) % d = (c x).val
        rw [Nat.add_mul_mod_self_left]
        exact Nat.mod_eq_of_lt (c x).isLt
      have e2 : ((c x).val + d * s) / d = s := by
        rw [Nat.add_mul_div_left _ _ hd, Nat.div_eq_of_lt (c x).isLt, Nat.zero_add]
      show (spinFold l (Function.update c0 x (Fin.ofNat d ((c x).val + d * s)))
        (((c x).val + d * s) / d)).1 = c
      rw [e1, e2]
      exact hc
    · rintro t ⟨ht, htc⟩
      have htc' : (spinFold l (Function.update c0 x (Fin.ofNat d t)) (t / d)).1 = c := htc
      have ex : Fin.ofNat d t = c x := by
        have := congrFun htc' x
        rw [spinFold_off _ _ _ _ hx] at this
        simpa using this
      rw [ex] at htc'
      have hlt : t / d < d ^ l.length := by
        rw [Nat.div_lt_iff_lt_mul hd]
        simpa [pow_succ] using ht
      have := hu (t / d) ⟨hlt, htc'⟩
      have hm : t % d = (c x).val := congrArg Fin.val ex
      rw [← this, ← hm]
      exact (Nat.mod_add_div t d).symm

theorem latticeSites_mem {M N : ℕ} (x : LatticeSite M N) : x ∈ latticeSites M N := by
  simp [latticeSites]

theorem latticeSites_nodup (M N : ℕ) : (latticeSites M N).Nodup := by
  have : latticeSites M N = List.finRange M ×ˢ List.finRange N := rfl
  rw [this]
  exact List.Nodup.product (List.nodup_finRange M) (List.nodup_finRange N)

theorem latticeSites_length (M N : ℕ) : (latticeSites M N).length = M * N := by
  have : latticeSites M N = List.finRange M ×ˢ List.finRange N := rfl
  rw [this]
  simp [List.product, SProd.sprod]

/-! ## Indices -/

/-- All spins possible and as many as there are sites. -/
def Spins (d n : ℕ) (a : List ℕ) : Prop := a.length = n ∧ ∀ s ∈ a, s < d

/-- The place of an index in the order of the loop. -/
def indexRank (d : ℕ) : List ℕ → ℕ
  | [] => 0
  | i :: rest => i + d * indexRank d rest

theorem indexRank_lt {d n : ℕ} {l : List ℕ} (h : Spins d n l) : indexRank d l < d ^ n := by
  obtain ⟨rfl, h⟩ := h
  induction l with
  | nil => simp [indexRank]
  | cons i l ih =>
    have h1 := h i (by simp)
    have h2 := ih fun s hs => h s (by simp [hs])
    rw [indexRank, List.length_cons, pow_succ]
    calc i + d * indexRank d l < d + d * indexRank d l := by omega
      _ = d * (indexRank d l + 1) := by ring
      _ ≤ d * d ^ l.length := Nat.mul_le_mul_left _ h2
      _ = _ := by ring

theorem indexRank_inj {d n : ℕ} {l l' : List ℕ} (h : Spins d n l) (h' : Spins d n l')
    (e : indexRank d l = indexRank d l') : l = l' := by
  induction l generalizing n l' with
  | nil =>
    have : l'.length = 0 := by rw [h'.1, ← h.1]; rfl
    exact (List.length_eq_zero_iff.1 this).symm
  | cons i l ih =>
    cases l' with
    | nil =>
      have : (i :: l).length = 0 := by rw [h.1, ← h'.1]; rfl
      simp at this
    | cons j l' =>
      have hi := h.2 i (by simp)
      have hj := h'.2 j (by simp)
      simp only [indexRank] at e
      have e1 : i = j := by
        have := congrArg (· % d) e
        simpa [Nat.add_mul_mod_self_left, Nat.mod_eq_of_lt hi, Nat.mod_eq_of_lt hj] using this
      subst e1
      have e2 : indexRank d l = indexRank d l' := by
        have : d * indexRank d l = d * indexRank d l' := by omega
        exact Nat.eq_of_mul_eq_mul_left (by omega) this
      have hl : l.length = l'.length := by
        have := h.1.trans h'.1.symm
        simpa using this
      rw [ih (n := l.length) ⟨rfl, fun s hs => h.2 s (by simp [hs])⟩
        ⟨hl.symm, fun s hs => h'.2 s (by simp [hs])⟩ e2]

theorem nextIndex_some {d n : ℕ} {l l' : List ℕ} (h : Spins d n l) (e : nextIndex d l = some l') :
    Spins d n l' ∧ indexRank d l' = indexRank d l + 1 := by
  induction l generalizing n l' with
  | nil => simp [nextIndex] at e
  | cons i l ih =>
    have hi := h.2 i (by simp)
    rw [nextIndex] at e
    by_cases hd : i + 1 = d
    · rw [if_pos hd] at e
      cases hr : nextIndex d l with
      | none => rw [hr] at e; simp at e
      | some r =>
        rw [hr] at e
        simp only [Option.map_some, Option.some.injEq] at e
        subst e
        obtain ⟨h1, h2⟩ := ih (n := l.length) ⟨rfl, fun s hs => h.2 s (by simp [hs])⟩ hr
        refine ⟨⟨by rw [List.length_cons, h1.1, ← h.1, List.length_cons], ?_⟩, ?_⟩
        · intro s hs
          rcases List.mem_cons.1 hs with rfl | hs
          · omega
          · exact h1.2 s hs
        · rw [indexRank, indexRank, h2, ← hd]
          ring
    · rw [if_neg hd] at e
      simp only [Option.some.injEq] at e
      subst e
      refine ⟨⟨by rw [← h.1]; rfl, ?_⟩, by rw [indexRank, indexRank]; ring⟩
      intro s hs
      rcases List.mem_cons.1 hs with rfl | hs
      · omega
      · exact h.2 s (by simp [hs])

theorem nextIndex_none {d n : ℕ} {l : List ℕ} (h : Spins d n l) (e : nextIndex d l = none) :
    indexRank d l + 1 = d ^ n := by
  obtain ⟨rfl, h⟩ := h
  induction l with
  | nil => rfl
  | cons i l ih =>
    replace ih := fun x y => ih y x
    rw [nextIndex] at e
    by_cases hd : i + 1 = d
    · rw [if_pos hd] at e
      have h1 := ih (fun s hs => h s (by simp [hs])) (by simpa using e)
      rw [indexRank, List.length_cons, pow_succ, ← h1]
      rw [show i + d * indexRank d l + 1 = (i + 1) + d * indexRank d l by ring, hd]
      ring
    · rw [if_neg hd] at e
      simp at e

theorem spins_replicate {d n : ℕ} (hd : 0 < d) : Spins d n (List.replicate n 0) :=
  ⟨List.length_replicate, fun s hs => by rw [(List.mem_replicate.1 hs).2]; exact hd⟩

theorem indexRank_replicate (d n : ℕ) : indexRank d (List.replicate n 0) = 0 := by
  induction n with
  | zero => rfl
  | succ n ih => rw [List.replicate_succ, indexRank, ih]; ring

/-- What holds of the table before the index of rank `k` holds at the end. -/
theorem elementLoop_inv {d n : ℕ} (record : ElementTable K → List ℕ → ElementTable K)
    (Inv : ℕ → ElementTable K → Prop)
    (step : ∀ t l, Spins d n l → Inv (indexRank d l) t → Inv (indexRank d l + 1) (record t l)) :
    ∀ (fuel : ℕ) (l : List ℕ) (t : ElementTable K), Spins d n l → d ^ n ≤ indexRank d l + fuel →
      Inv (indexRank d l) t → ∃ t', elementLoop d record fuel l t = some t' ∧ Inv (d ^ n) t' := by
  intro fuel
  induction fuel with
  | zero =>
    intro l t hl hf
    have := indexRank_lt hl
    omega
  | succ fuel ih =>
    intro l t hl hf hi
    rw [elementLoop]
    cases e : nextIndex d l with
    | none => exact ⟨_, rfl, nextIndex_none hl e ▸ step t l hl hi⟩
    | some l' =>
      obtain ⟨h1, h2⟩ := nextIndex_some hl e
      exact ih l' _ h1 (by omega) (h2 ▸ step t l hl hi)

theorem Spins.append {d m n : ℕ} {a b : List ℕ} (ha : Spins d m a) (hb : Spins d n b) :
    Spins d (m + n) (a ++ b) :=
  ⟨by rw [List.length_append, ha.1, hb.1], fun s hs =>
    (List.mem_append.1 hs).elim (ha.2 s) (hb.2 s)⟩

theorem Spins.take {d m n : ℕ} {l : List ℕ} (h : Spins d (m + n) l) : Spins d m (l.take m) :=
  ⟨by rw [List.length_take, h.1]; omega, fun s hs => h.2 s (List.mem_of_mem_take hs)⟩

theorem Spins.drop {d m n : ℕ} {l : List ℕ} (h : Spins d (m + n) l) : Spins d n (l.drop m) :=
  ⟨by rw [List.length_drop, h.1]; omega, fun s hs => h.2 s (List.mem_of_mem_drop hs)⟩

/-! ## Tables -/

/-- A table which has the elements for which `keep` holds, and the rows for which `row` holds. -/
def TableOf (value : List ℕ → K) (keep row : List ℕ → List ℕ → Prop) (t : ElementTable K) : Prop :=
  OMap.Sorted t ∧
  (∀ a r, OMap.find? t a = some r →
    OMap.Sorted r ∧ (∃ b, row a b) ∧ ∀ b v, OMap.find? r b = some v ↔ keep a b ∧ v = value (a ++ b)) ∧
  ∀ a b, row a b → OMap.find? t a ≠ none

theorem TableOf.set [DecidableEq K] {value : List ℕ → K} {keep row : List ℕ → List ℕ → Prop}
    {t : ElementTable K} (h : TableOf value keep row t) (a b : List ℕ)
    (hr : ∀ a b, keep a b → row a b) :
    TableOf value (fun a' b' => keep a' b' ∨ a' = a ∧ b' = b) (fun a' b' => row a' b' ∨ a' = a ∧ b' = b)
      (OMap.set t a (OMap.set ((OMap.find? t a).getD []) b (value (a ++ b)))) := by
  obtain ⟨h1, h2, h3⟩ := h
  refine ⟨h1.set _ _, ?_, ?_⟩
  · intro a' r' hf
    rw [OMap.find?_set] at hf
    by_cases e : a = a'
    · subst e
      simp only [if_true, Option.some.injEq] at hf
      subst hf
      refine ⟨OMap.Sorted.set ?_ _ _, ⟨b, Or.inr ⟨rfl, rfl⟩⟩, ?_⟩
      · cases hf : OMap.find? t a with
        | none => simp [OMap.Sorted]
        | some r => exact (h2 a r hf).1
      · intro b' v
        rw [OMap.find?_set]
        by_cases eb : b = b'
        · subst eb
          simp [eq_comm]
        · have hne : ¬ b' = b := fun x => eb x.symm
          rw [if_neg hne]
          cases hf : OMap.find? t a with
          | none =>
            have hn : ¬ keep a b' := fun hk => h3 a b' (hr _ _ hk) hf
            simp [OMap.find?, hn, hne]
          | some r =>
            simp only [Option.getD_some, hne, and_false, or_false]
            exact (h2 a r hf).2.2 b' v
    · have hne : ¬ a' = a := fun x => e x.symm
      rw [if_neg hne] at hf
      obtain ⟨g1, ⟨b0, g2⟩, g3⟩ := h2 a' r' hf
      refine ⟨g1, ⟨b0, Or.inl g2⟩, ?_⟩
      simpa only [hne, false_and, or_false] using g3
  · intro a' b' hab
    rw [OMap.find?_set]
    by_cases e : a = a'
    · simp [e]
    · rw [if_neg fun x => e x.symm]
      rcases hab with hab | hab
      · exact h3 a' b' hab
      · exact absurd hab.1.symm e

theorem TableOf.emplace {value : List ℕ → K} {keep row : List ℕ → List ℕ → Prop}
    {t : ElementTable K} (h : TableOf value keep row t) (a b : List ℕ)
    (hr : ∀ a b, keep a b → row a b) :
    TableOf value keep (fun a' b' => row a' b' ∨ a' = a ∧ b' = b) (OMap.emplace t a []) := by
  obtain ⟨h1, h2, h3⟩ := h
  rw [OMap.emplace_eq _ h1]
  cases hf : OMap.find? t a with
  | some r =>
    rw [if_pos (OMap.find?_isSome.1 (by rw [hf]; rfl))]
    refine ⟨h1, ?_, ?_⟩
    · intro a' r' h'
      obtain ⟨g1, ⟨b0, g2⟩, g3⟩ := h2 a' r' h'
      exact ⟨g1, ⟨b0, Or.inl g2⟩, g3⟩
    · rintro a' b' (hab | ⟨rfl, rfl⟩)
      · exact h3 a' b' hab
      · simp [hf]
  | none =>
    rw [if_neg (OMap.find?_eq_none.1 hf)]
    refine ⟨h1.set _ _, ?_, ?_⟩
    · intro a' r' h'
      rw [OMap.find?_set] at h'
      by_cases e : a = a'
      · subst e
        simp only [if_true, Option.some.injEq] at h'
        subst h'
        refine ⟨by simp [OMap.Sorted], ⟨b, Or.inr ⟨rfl, rfl⟩⟩, ?_⟩
        intro b' v
        have hn : ¬ keep a b' := fun hk => h3 a b' (hr _ _ hk) hf
        simp [OMap.find?, hn]
      · rw [if_neg fun x => e x.symm] at h'
        obtain ⟨g1, ⟨b0, g2⟩, g3⟩ := h2 a' r' h'
        exact ⟨g1, ⟨b0, Or.inl g2⟩, g3⟩
    · intro a' b' hab
      rw [OMap.find?_set]
      by_cases e : a = a'
      · simp [e]
      · rw [if_neg fun x => e x.symm]
        rcases hab with hab | hab
        · exact h3 a' b' hab
        · exact absurd hab.1.symm e

theorem TableOf.congr {value : List ℕ → K} {keep row keep' row' : List ℕ → List ℕ → Prop}
    {t : ElementTable K} (h : TableOf value keep row t) (hk : ∀ a b, keep a b ↔ keep' a b)
    (hr : ∀ a b, row a b ↔ row' a b) : TableOf value keep' row' t := by
  have e1 : keep = keep' := by funext a b; exact propext (hk a b)
  have e2 : row = row' := by funext a b; exact propext (hr a b)
  rwa [← e1, ← e2]

section loops

variable [Zero K] [DecidableEq K]

/-- The indices of rank below `k` at which there is a value. -/
def seen (d body : ℕ) (value : List ℕ → K) (k : ℕ) (a b : List ℕ) : Prop :=
  Spins d body a ∧ Spins d body b ∧ value (a ++ b) ≠ 0 ∧ indexRank d (a ++ b) < k

theorem seen_succ {d body : ℕ} {value : List ℕ → K} {l : List ℕ} (hl : Spins d (body + body) l)
    (a b : List ℕ) : seen d body value (indexRank d l + 1) a b ↔
      seen d body value (indexRank d l) a b ∨ (value l ≠ 0 ∧ a = l.take body ∧ b = l.drop body) := by
  constructor
  · rintro ⟨h1, h2, h3, h4⟩
    rcases Nat.lt_succ_iff_lt_or_eq.1 h4 with h | h
    · exact Or.inl ⟨h1, h2, h3, h⟩
    · have e := indexRank_inj (h1.append h2) hl h
      subst e
      exact Or.inr ⟨h3, by rw [List.take_left' h1.1], by rw [List.drop_left' h1.1]⟩
  · rintro (⟨h1, h2, h3, h4⟩ | ⟨h3, rfl, rfl⟩)
    · exact ⟨h1, h2, h3, by omega⟩
    · rw [seen, List.take_append_drop]
      exact ⟨hl.take, hl.drop, h3, by omega⟩

theorem recordElement_inv {d body : ℕ} {value : List ℕ → K} {l : List ℕ} {t : ElementTable K}
    (hl : Spins d (body + body) l)
    (h : TableOf value (seen d body value (indexRank d l)) (seen d body value (indexRank d l)) t) :
    TableOf value (seen d body value (indexRank d l + 1)) (seen d body value (indexRank d l + 1))
      (recordElement body value t l) := by
  rw [recordElement]
  by_cases hv : value l ≠ 0
  · rw [if_pos hv]
    have := h.set (l.take body) (l.drop body) fun _ _ x => x
    rw [List.take_append_drop] at this
    refine this.congr ?_ ?_ <;> · intro a b; rw [seen_succ hl]; simp [hv]
  · rw [if_neg hv]
    refine h.congr ?_ ?_ <;> · intro a b; rw [seen_succ hl]; simp [hv]

theorem recordHopping_inv {d body : ℕ} {value : List ℕ → K} {l : List ℕ} {t : ElementTable K}
    (hl : Spins d (body + body) l)
    (h : TableOf value (fun a b => seen d body value (indexRank d l) a b ∧ a ≠ b)
      (seen d body value (indexRank d l)) t) :
    TableOf value (fun a b => seen d body value (indexRank d l + 1) a b ∧ a ≠ b)
      (seen d body value (indexRank d l + 1)) (recordHopping body value t l) := by
  rw [recordHopping]
  by_cases hv : value l ≠ 0
  · rw [if_pos hv]
    by_cases hn : l.take body ≠ l.drop body
    · rw [if_pos hn]
      have := h.set (l.take body) (l.drop body) fun _ _ x => x.1
      rw [List.take_append_drop] at this
      refine this.congr ?_ ?_
      · intro a b
        rw [seen_succ hl]
        constructor
        · rintro (⟨h1, h2⟩ | ⟨rfl, rfl⟩)
          · exact ⟨Or.inl h1, h2⟩
          · exact ⟨Or.inr ⟨hv, rfl, rfl⟩, hn⟩
        · rintro ⟨h1 | ⟨-, rfl, rfl⟩, h2⟩
          · exact Or.inl ⟨h1, h2⟩
          · exact Or.inr ⟨rfl, rfl⟩
      · intro a b; rw [seen_succ hl]; simp [hv]
    · rw [if_neg hn]
      have := h.emplace (l.take body) (l.drop body) fun _ _ x => x.1
      refine this.congr ?_ ?_
      · intro a b
        rw [seen_succ hl]
        constructor
        · rintro ⟨h1, h2⟩
          exact ⟨Or.inl h1, h2⟩
        · rintro ⟨h1 | ⟨-, rfl, rfl⟩, h2⟩
          · exact ⟨h1, h2⟩
          · exact absurd h2 hn
      · intro a b; rw [seen_succ hl]; simp [hv]
  · rw [if_neg hv]
    refine h.congr ?_ ?_ <;> · intro a b; rw [seen_succ hl]; simp [hv]

/-- An element of an operator which is not zero. -/
def Element (d body : ℕ) (value : List ℕ → K) (a b : List ℕ) : Prop :=
  Spins d body a ∧ Spins d body b ∧ value (a ++ b) ≠ 0

theorem seen_all {d body : ℕ} {value : List ℕ → K} (a b : List ℕ) :
    seen d body value (d ^ (body + body)) a b ↔ Element d body value a b :=
  ⟨fun h => ⟨h.1, h.2.1, h.2.2.1⟩, fun h => ⟨h.1, h.2.1, h.2.2, indexRank_lt (h.1.append h.2.1)⟩⟩

theorem tableOf_nil {value : List ℕ → K} {keep row : List ℕ → List ℕ → Prop}
    (h : ∀ a b, ¬ row a b) : TableOf value keep row ([] : ElementTable K) :=
  ⟨by simp [OMap.Sorted], fun a r hf => by simp [OMap.find?] at hf, fun a b hr => absurd hr (h a b)⟩

theorem findElement_spec {d body : ℕ} (hd : 0 < d) (hb : 0 < body) (value : List ℕ → K) :
    ∃ t, findElement d body value = .ok t ∧
      TableOf value (Element d body value) (Element d body value) t := by
  rw [findElement, if_neg (by omega), two_mul]
  obtain ⟨t, h1, h2⟩ := elementLoop_inv (d := d) (n := body + body) (recordElement body value)
    (fun k => TableOf value (seen d body value k) (seen d body value k))
    (fun t l hl => recordElement_inv hl) (d ^ (body + body)) (List.replicate (body + body) 0) []
    (spins_replicate hd) (by omega) (tableOf_nil fun a b h => by
      rw [indexRank_replicate] at h
      exact absurd h.2.2.2 (by omega))
  exact ⟨t, by rw [h1], h2.congr seen_all seen_all⟩

theorem findHopping_spec {d body : ℕ} (hd : 0 < d) (hb : 0 < body) (value : List ℕ → K) :
    ∃ t, findHopping d body value = .ok t ∧
      TableOf value (fun a b => Element d body value a b ∧ a ≠ b) (Element d body value) t := by
  rw [findHopping, if_neg (by omega), two_mul]
  obtain ⟨t, h1, h2⟩ := elementLoop_inv (d := d) (n := body + body) (recordHopping body value)
    (fun k => TableOf value (fun a b => seen d body value k a b ∧ a ≠ b) (seen d body value k))
    (fun t l hl => recordHopping_inv hl) (d ^ (body + body)) (List.replicate (body + body) 0) []
    (spins_replicate hd) (by omega) (tableOf_nil fun a b h => by
      rw [indexRank_replicate] at h
      exact absurd h.2.2.2 (by omega))
  exact ⟨t, by rw [h1], h2.congr (fun a b => by rw [seen_all]) seen_all⟩

end loops

end TAT
