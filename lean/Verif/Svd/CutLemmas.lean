import Verif.Svd.Cut

/-!
# Lemmas about the truncation of singular values
-/

namespace TAT

variable {σ β : Type} [TatSym σ] [LinearOrder β] [Zero β]

/-- Remaining dimensions as a function. -/
structure Counts (rs : List (σ × List β)) (ru rv : List (σ × ℕ)) (k : σ → ℕ) : Prop where
  su : OMap.Sorted ru
  sv : OMap.Sorted rv
  ku : OMap.keys ru = OMap.keys rs
  kv : ∀ s, s ∈ OMap.keys rv ↔ -s ∈ OMap.keys rs
  u : ∀ s ∈ OMap.keys rs, OMap.find? ru s = some (k s)
  v : ∀ s ∈ OMap.keys rs, OMap.find? rv (-s) = some (k s)

/-- What the loop keeps true. -/
structure Taken (rs : List (σ × List β)) (k : σ → ℕ) : Prop where
  le : ∀ e ∈ rs, k e.1 ≤ e.2.length
  pos : ∀ e ∈ rs, ∀ i < k e.1, ∀ x, e.2[i]? = some x → 0 < x
  top : ∀ e ∈ rs, ∀ i < k e.1, ∀ x, e.2[i]? = some x →
    ∀ f ∈ rs, ∀ j, k f.1 ≤ j → ∀ y, f.2[j]? = some y → y ≤ x

theorem pick_spec {rs : List (σ × List β)} {ru : List (σ × ℕ)} {k : σ → ℕ}
    (hu : ∀ e ∈ rs, OMap.find? ru e.1 = some (k e.1)) (hle : ∀ e ∈ rs, k e.1 ≤ e.2.length) :
    ∃ s x, pick rs ru = .ok (s, x) ∧
      ((s = 0 ∧ x = 0) ∨ ∃ e ∈ rs, e.1 = s ∧ e.2[k s]? = some x ∧ 0 < x) ∧ 0 ≤ x ∧
      ∀ e ∈ rs, ∀ y, e.2[k e.1]? = some y → y ≤ x := by
  have : ∀ (l : List (σ × List β)) (s0 : σ) (x0 : β), (∀ e ∈ l, e ∈ rs) → 0 ≤ x0 →
      ((s0 = 0 ∧ x0 = 0) ∨ ∃ e ∈ rs, e.1 = s0 ∧ e.2[k s0]? = some x0 ∧ 0 < x0) →
      ∃ s x, l.foldl (pickStep ru) (.ok (s0, x0)) = .ok (s, x) ∧
        ((s = 0 ∧ x = 0) ∨ ∃ e ∈ rs, e.1 = s ∧ e.2[k s]? = some x ∧ 0 < x) ∧ x0 ≤ x ∧
        ∀ e ∈ l, ∀ y, e.2[k e.1]? = some y → y ≤ x := by
    intro l
    induction l with
    | nil => intro s0 x0 _ _ h; exact ⟨s0, x0, rfl, h, le_refl _, by simp⟩
    | cons e l ih =>
      intro s0 x0 hl h0 h
      have he := hl e (by simp)
      rw [List.foldl_cons]
      have hstep : ∃ s1 x1, pickStep ru (.ok (s0, x0)) e = .ok (s1, x1) ∧ x0 ≤ x1 ∧
          ((s1 = 0 ∧ x1 = 0) ∨ ∃ e ∈ rs, e.1 = s1 ∧ e.2[k s1]? = some x1 ∧ 0 < x1) ∧
          ∀ y, e.2[k e.1]? = some y → y ≤ x1 := by
        unfold pickStep
        dsimp only [Outcome.bind]
        rw [hu e he]
        dsimp only
        by_cases hk : k e.1 = e.2.length
        · rw [if_pos hk]
          refine ⟨s0, x0, rfl, le_refl _, h, fun y hy => ?_⟩
          rw [hk, List.getElem?_length] at hy
          simp at hy
        · rw [if_neg hk]
          have hlt : k e.1 < e.2.length := lt_of_le_of_ne (hle e he) hk
          rw [List.getElem?_eq_getElem hlt]
          dsimp only
          by_cases hx : x0 < e.2[k e.1]
          · rw [if_pos hx]
            refine ⟨e.1, _, rfl, hx.le, Or.inr ⟨e, he, rfl, List.getElem?_eq_getElem hlt,
              lt_of_le_of_lt h0 hx⟩, fun y hy => ?_⟩
            rw [← Option.some.inj hy]
          · rw [if_neg hx]
            refine ⟨s0, x0, rfl, le_refl _, h, fun y hy => ?_⟩
            rw [← Option.some.inj hy]
            exact not_lt.1 hx
      obtain ⟨s1, x1, h1, h2, h3, h4⟩ := hstep
      rw [h1]
      obtain ⟨s, x, i1, i2, i3, i4⟩ := ih s1 x1 (fun f hf => hl f (by simp [hf])) (h0.trans h2) h3
      refine ⟨s, x, i1, i2, h2.trans i3, fun f hf y hy => ?_⟩
      rcases List.mem_cons.1 hf with rfl | hf
      · exact (h4 y hy).trans i3
      · exact i4 f hf y hy
  obtain ⟨s, x, h1, h2, h3, h4⟩ := this rs 0 0 (fun _ h => h) (le_refl _) (Or.inl ⟨rfl, rfl⟩)
  exact ⟨s, x, h1, h2, h3, h4⟩

theorem bump_spec {m : List (σ × ℕ)} {s : σ} {r : ℕ} (h : OMap.find? m s = some r) :
    bump m s = .ok (OMap.set m s (r + 1)) := by
  unfold bump; rw [h]

theorem keys_set_mem {m : List (σ × ℕ)} (hm : OMap.Sorted m) {s : σ} (h : s ∈ OMap.keys m) (r : ℕ) :
    OMap.keys (OMap.set m s r) = OMap.keys m := by
  refine List.Perm.eq_of_pairwise (le := fun a b => a < b) ?_ (hm.set s r) hm ?_
  · intro a b _ _ h1 h2; exact absurd (h1.trans h2) (lt_irrefl _)
  · refine (List.perm_ext_iff_of_nodup (hm.set s r).nodup hm.nodup).2 fun x => ?_
    rw [OMap.mem_keys_set]
    constructor
    · rintro (rfl | h')
      · exact h
      · exact h'
    · exact Or.inr

theorem Counts.bump {rs : List (σ × List β)} {ru rv : List (σ × ℕ)} {k : σ → ℕ}
    (h : Counts rs ru rv k) {s : σ} (hs : s ∈ OMap.keys rs) :
    ∃ ru' rv', TAT.bump ru s = .ok ru' ∧ TAT.bump rv (-s) = .ok rv' ∧
      Counts rs ru' rv' (fun x => if x = s then k s + 1 else k x) := by
  refine ⟨_, _, bump_spec (h.u s hs), bump_spec (h.v s hs), ?_⟩
  have hs' : s ∈ OMap.keys ru := by rw [h.ku]; exact hs
  have hv' : -s ∈ OMap.keys rv := by rw [h.kv, neg_neg]; exact hs
  refine ⟨h.su.set _ _, h.sv.set _ _, (keys_set_mem h.su hs' _).trans h.ku, fun x => ?_,
    fun x hx => ?_, fun x hx => ?_⟩
  · rw [keys_set_mem h.sv hv', h.kv]
  · rw [OMap.find?_set]
    by_cases e : x = s
    · rw [if_pos e, if_pos e]
    · rw [if_neg e, if_neg e]; exact h.u x hx
  · rw [OMap.find?_set]
    by_cases e : x = s
    · rw [if_pos (by rw [e]), if_pos e]
    · rw [if_neg (fun c => e (neg_inj.1 c)), if_neg e]; exact h.v x hx

/-- Number of positive values of a sector. -/
def positives (v : List β) : ℕ := (v.filter fun x => decide (0 < x)).length

theorem positives_head {v : List β} (hd : v.Pairwise (· ≥ ·)) {r : ℕ} (h : r < positives v) :
    ∃ x, v[r]? = some x ∧ 0 < x := by
  induction v generalizing r with
  | nil => simp [positives] at h
  | cons y v ih =>
    rw [List.pairwise_cons] at hd
    by_cases hy : 0 < y
    · cases r with
      | zero => exact ⟨y, rfl, hy⟩
      | succ r =>
        unfold positives at h
        rw [List.filter_cons, if_pos (decide_eq_true hy), List.length_cons] at h
        exact ih hd.2 (r := r) (by unfold positives; omega)
    · have : positives (y :: v) = 0 := by
        unfold positives
        rw [List.length_eq_zero_iff, List.filter_eq_nil_iff]
        intro x hx
        rw [decide_eq_true_iff]
        rcases List.mem_cons.1 hx with rfl | hx
        · exact hy
        · exact fun hc => hy (lt_of_lt_of_le hc (hd.1 x hx))
      omega

theorem positives_le (v : List β) : positives v ≤ v.length := List.length_filter_le _ _

theorem exists_lt_of_sum_lt {γ : Type} {l : List γ} {f g : γ → ℕ} (h : (l.map f).sum < (l.map g).sum) :
    ∃ x ∈ l, f x < g x := by
  by_contra hc
  push Not at hc
  have : (l.map g).sum ≤ (l.map f).sum := by
    clear h
    induction l with
    | nil => simp
    | cons a l ih =>
      simp only [List.map_cons, List.sum_cons]
      have := hc a (by simp)
      have := ih fun x hx => hc x (by simp [hx])
      omega
  omega

theorem sum_map_bump {l : List (σ × List β)} (hn : (OMap.keys l).Nodup) {s : σ}
    (hs : s ∈ OMap.keys l) (k : σ → ℕ) :
    (l.map fun e => if e.1 = s then k s + 1 else k e.1).sum = (l.map fun e => k e.1).sum + 1 := by
  induction l with
  | nil => simp [OMap.keys] at hs
  | cons a l ih =>
    rw [OMap.keys_cons, List.nodup_cons] at hn
    rw [OMap.keys_cons, List.mem_cons] at hs
    simp only [List.map_cons, List.sum_cons]
    by_cases e : a.1 = s
    · rw [if_pos e]
      have : (l.map fun e => if e.1 = s then k s + 1 else k e.1) = l.map fun e => k e.1 := by
        refine List.map_congr_left fun x hx => if_neg fun c => hn.1 ?_
        rw [e, ← c]
        exact List.mem_map_of_mem hx
      rw [this, e]; omega
    · rw [if_neg e, ih hn.2 (hs.resolve_left fun c => e c.symm)]; omega

theorem cutLoop_spec {rs : List (σ × List β)} (hrs : OMap.Sorted rs)
    (hdesc : ∀ e ∈ rs, e.2.Pairwise (· ≥ ·)) (n : ℕ) :
    ∀ {ru rv : List (σ × ℕ)} {k : σ → ℕ}, Counts rs ru rv k → Taken rs k →
    (rs.map fun e => k e.1).sum + n ≤ (rs.map fun e => positives e.2).sum →
    ∃ ru' rv' k', cutLoop rs n ru rv = .ok (ru', rv') ∧ Counts rs ru' rv' k' ∧ Taken rs k' ∧
      (rs.map fun e => k' e.1).sum = (rs.map fun e => k e.1).sum + n := by
  induction n with
  | zero => intro ru rv k hc ht _; exact ⟨ru, rv, k, rfl, hc, ht, rfl⟩
  | succ n ih =>
    intro ru rv k hc ht hsum
    have hmem : ∀ e ∈ rs, e.1 ∈ OMap.keys rs := fun e he => List.mem_map_of_mem he
    obtain ⟨s, x, h1, h2, h3, h4⟩ := pick_spec (fun e he => hc.u e.1 (hmem e he)) ht.le
    -- some positive value is left
    obtain ⟨g, hg, hgk⟩ := exists_lt_of_sum_lt (l := rs) (f := fun e => k e.1)
      (g := fun e => positives e.2) (by omega)
    obtain ⟨y, hy1, hy2⟩ := positives_head (hdesc g hg) hgk
    have hxpos : 0 < x := lt_of_lt_of_le hy2 (h4 g hg y hy1)
    obtain ⟨e, he, rfl, hex, _⟩ : ∃ e ∈ rs, e.1 = s ∧ e.2[k s]? = some x ∧ 0 < x := by
      rcases h2 with h2 | h2
      · rw [h2.2] at hxpos; exact absurd hxpos (lt_irrefl _)
      · exact h2
    obtain ⟨ru', rv', b1, b2, b3⟩ := hc.bump (hmem e he)
    have huniq : ∀ f ∈ rs, f.1 = e.1 → f = e := by
      intro f hf hfe
      have a := OMap.find?_of_mem hrs.nodup (k := f.1) (v := f.2) hf
      have b := OMap.find?_of_mem hrs.nodup (k := e.1) (v := e.2) he
      rw [hfe] at a
      rw [a] at b
      exact Prod.ext hfe (Option.some.inj b)
    have hlt : k e.1 < e.2.length := (List.getElem?_eq_some_iff.1 hex).1
    -- everything not taken is below the new value
    have hrest : ∀ f ∈ rs, ∀ j, k f.1 ≤ j → ∀ y, f.2[j]? = some y → y ≤ x := by
      intro f hf j hj y hy
      obtain ⟨hj', rfl⟩ := List.getElem?_eq_some_iff.1 hy
      have hk : k f.1 < f.2.length := lt_of_le_of_lt hj hj'
      refine le_trans ?_ (h4 f hf _ (List.getElem?_eq_getElem hk))
      rcases Nat.eq_or_lt_of_le hj with rfl | hj
      · exact le_refl _
      · exact List.pairwise_iff_getElem.1 (hdesc f hf) _ _ hk hj' hj
    have ht' : Taken rs (fun z => if z = e.1 then k e.1 + 1 else k z) := by
      refine ⟨fun f hf => ?_, fun f hf i hi y hy => ?_, fun f hf i hi y hy g hg j hj z hz => ?_⟩
      · by_cases c : f.1 = e.1
        · rw [huniq f hf c]; rw [if_pos rfl]; omega
        · rw [if_neg c]; exact ht.le f hf
      · by_cases c : f.1 = e.1
        · rw [huniq f hf c] at hi hy
          rw [if_pos rfl] at hi
          rcases Nat.eq_or_lt_of_le (Nat.le_of_lt_succ hi) with rfl | hi
          · rw [hex] at hy
            rw [← Option.some.inj hy]; exact hxpos
          · exact ht.pos e he i hi y hy
        · rw [if_neg c] at hi
          exact ht.pos f hf i hi y hy
      · have hj' : k g.1 ≤ j := by
          by_cases c : g.1 = e.1
          · rw [if_pos c] at hj; rw [c]; omega
          · rwa [if_neg c] at hj
        by_cases c : f.1 = e.1
        · rw [huniq f hf c] at hi hy
          rw [if_pos rfl] at hi
          rcases Nat.eq_or_lt_of_le (Nat.le_of_lt_succ hi) with rfl | hi
          · rw [hex] at hy
            rw [← Option.some.inj hy]; exact hrest g hg j hj' z hz
          · exact ht.top e he i hi y hy g hg j hj' z hz
        · rw [if_neg c] at hi
          exact ht.top f hf i hi y hy g hg j hj' z hz
    have hs' := sum_map_bump hrs.nodup (hmem e he) k
    obtain ⟨ru'', rv'', k'', c1, c2, c3, c4⟩ := ih b3 ht' (by rw [hs']; omega)
    refine ⟨ru'', rv'', k'', ?_, c2, c3, by rw [c4]; rw [hs']; omega⟩
    unfold cutLoop
    rw [h1]
    dsimp only [Outcome.bind]
    rw [b1]
    dsimp only
    rw [b2]
    exact c1

theorem counts_init {rs : List (σ × List β)} (hrs : OMap.Sorted rs) :
    Counts rs (rs.foldl (fun m e => OMap.set m e.1 0) [])
      (rs.foldl (fun m e => OMap.set m (-e.1) 0) []) fun _ => 0 := by
  have key : ∀ (f : σ → σ) (l : List (σ × List β)) (m : List (σ × ℕ)), OMap.Sorted m →
      OMap.Sorted (l.foldl (fun m e => OMap.set m (f e.1) 0) m) ∧
      (∀ x, x ∈ OMap.keys (l.foldl (fun m e => OMap.set m (f e.1) 0) m) ↔
        x ∈ OMap.keys m ∨ ∃ s ∈ OMap.keys l, f s = x) ∧
      ∀ x, (∃ s ∈ OMap.keys l, f s = x) →
        OMap.find? (l.foldl (fun m e => OMap.set m (f e.1) 0) m) x = some 0 := by
    intro f l
    induction l with
    | nil => intro m hm; exact ⟨hm, by simp [OMap.keys], by simp [OMap.keys]⟩
    | cons e l ih =>
      intro m hm
      obtain ⟨i1, i2, i3⟩ := ih (OMap.set m (f e.1) 0) (hm.set _ _)
      refine ⟨i1, fun x => ?_, fun x hx => ?_⟩
      · rw [List.foldl_cons, i2, OMap.mem_keys_set, OMap.keys_cons]
        simp only [List.mem_cons, exists_eq_or_imp]
        constructor
        · rintro ((rfl | h) | h)
          · exact Or.inr (Or.inl rfl)
          · exact Or.inl h
          · exact Or.inr (Or.inr h)
        · rintro (h | h | h)
          · exact Or.inl (Or.inr h)
          · exact Or.inl (Or.inl h.symm)
          · exact Or.inr h
      · rw [List.foldl_cons]
        by_cases hc : ∃ s ∈ OMap.keys l, f s = x
        · exact i3 x hc
        · have hxe : f e.1 = x := by
            obtain ⟨s, hs, rfl⟩ := hx
            rw [OMap.keys_cons, List.mem_cons] at hs
            rcases hs with rfl | hs
            · rfl
            · exact absurd ⟨s, hs, rfl⟩ hc
          have gen : ∀ (l : List (σ × List β)) (m : List (σ × ℕ)), (¬ ∃ s ∈ OMap.keys l, f s = x) →
              OMap.find? (l.foldl (fun m e => OMap.set m (f e.1) 0) m) x = OMap.find? m x := by
            intro l
            induction l with
            | nil => intro m _; rfl
            | cons a l ih =>
              intro m hn
              rw [List.foldl_cons, ih _ fun ⟨s, hs, h⟩ => hn ⟨s, by simp [hs], h⟩,
                OMap.find?_set, if_neg]
              intro c
              exact hn ⟨a.1, by simp, c.symm⟩
          rw [gen l _ hc, OMap.find?_set, if_pos hxe.symm]
  have h1 := key id rs [] (by simp [OMap.Sorted, OMap.keys])
  have h2 := key (fun s => -s) rs [] (by simp [OMap.Sorted, OMap.keys])
  refine ⟨h1.1, h2.1, ?_, fun s => ?_, fun s hs => h1.2.2 s ⟨s, hs, rfl⟩,
    fun s hs => h2.2.2 (-s) ⟨s, hs, rfl⟩⟩
  · refine List.Perm.eq_of_pairwise (le := fun a b => a < b) ?_ h1.1 hrs ?_
    · intro a b _ _ h1 h2; exact absurd (h1.trans h2) (lt_irrefl _)
    · refine (List.perm_ext_iff_of_nodup h1.1.nodup hrs.nodup).2 fun x => ?_
      rw [h1.2.1 x]
      simp [OMap.keys]
  · rw [h2.2.1]
    simp only [OMap.keys, List.map_nil, List.not_mem_nil, false_or]
    constructor
    · rintro ⟨x, hx, rfl⟩; rw [neg_neg]; exact hx
    · intro h; exact ⟨-s, h, neg_neg s⟩

theorem shorten_spec {rs : List (σ × List β)} (hrs : OMap.Sorted rs) :
    ∀ (l : List (σ × ℕ)), (OMap.keys l).Nodup → (∀ s ∈ OMap.keys l, s ∈ OMap.keys rs) →
    ∃ rs', l.foldl shorten (.ok rs) = .ok rs' ∧ OMap.Sorted rs' ∧ ∀ s,
      OMap.find? rs' s = match OMap.find? l s with
        | none => OMap.find? rs s
        | some 0 => none
        | some (n + 1) => (OMap.find? rs s).map fun v => resizeTo v (n + 1) := by
  intro l
  induction l generalizing rs with
  | nil => intro _ _; exact ⟨rs, rfl, hrs, fun s => rfl⟩
  | cons e l ih =>
    intro hn hk
    rw [OMap.keys_cons, List.nodup_cons] at hn
    have he := hk e.1 (by simp)
    obtain ⟨v, hv⟩ := Option.isSome_iff_exists.1 (OMap.find?_isSome.2 he)
    obtain ⟨rs1, e1, e2, e3, e4⟩ : ∃ rs1, shorten (.ok rs) e = .ok rs1 ∧ OMap.Sorted rs1 ∧
        (∀ s, s ≠ e.1 → OMap.find? rs1 s = OMap.find? rs s) ∧
        OMap.find? rs1 e.1 = match e.2 with
          | 0 => none
          | n + 1 => some (resizeTo v (n + 1)) := by
      unfold shorten
      dsimp only [Outcome.bind]
      cases h2 : e.2 with
      | zero =>
        refine ⟨_, rfl, hrs.erase _, fun s hs => ?_, ?_⟩
        · rw [OMap.find?_erase, if_neg hs]
        · rw [OMap.find?_erase, if_pos rfl]
      | succ n =>
        rw [if_neg (by omega), hv]
        refine ⟨_, rfl, hrs.set _ _, fun s hs => ?_, ?_⟩
        · rw [OMap.find?_set, if_neg hs]
        · rw [OMap.find?_set, if_pos rfl]
    rw [List.foldl_cons, e1]
    obtain ⟨rs', f1, f2, f3⟩ := ih e2 hn.2 (fun s hs => by
      rw [← OMap.find?_isSome, e3 s (fun c => hn.1 (c ▸ hs)), OMap.find?_isSome]
      exact hk s (by simp [hs]))
    refine ⟨rs', f1, f2, fun s => ?_⟩
    rw [f3 s]
    by_cases hs : s = e.1
    · have : OMap.find? l s = none := OMap.find?_eq_none.2 (hs ▸ hn.1)
      rw [this]
      have h2 : OMap.find? (e :: l) s = some e.2 := by
        obtain ⟨a, b⟩ := e
        simp only [OMap.find?]
        rw [if_pos hs]
      rw [h2, hs]
      dsimp only
      rw [e4, hv]
      cases e.2 <;> rfl
    · have h2 : OMap.find? (e :: l) s = OMap.find? l s := by
        obtain ⟨a, b⟩ := e
        simp only [OMap.find?]
        rw [if_neg hs]
      rw [h2, e3 s hs]

end TAT
