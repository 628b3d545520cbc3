import Verif.Square.TableLemmas
import Mathlib.Data.Rat.Defs

/-!
# C54 and C55: the enumeration of configurations and the tables of matrix elements
-/

namespace TAT

variable {K : Type}

/-- **C54.**  Whatever the configuration was before, each configuration of the lattice is set by exactly
one of the steps of `ergodic`. -/
theorem C54_ergodic_enumeration {M N d : ℕ} [NeZero d] (before c : SpinConfig M N d) :
    ∃! step, step < d ^ (M * N) ∧ ergodicSpin before step = c := by
  have := spinFold_unique (latticeSites M N) (latticeSites_nodup M N) before c
    fun x hx => absurd (latticeSites_mem x) hx
  rwa [latticeSites_length] at this

/-- **C54.**  The configuration before a step does not matter. -/
theorem C54_ergodic_forgets {M N d : ℕ} [NeZero d] (c c' : SpinConfig M N d) (step : ℕ) :
    ergodicSpin c step = ergodicSpin c' step := by
  have key : ∀ (l : List (LatticeSite M N)) (c c' : SpinConfig M N d) (step : ℕ),
      (∀ x, x ∉ l → c x = c' x) → (spinFold l c step).1 = (spinFold l c' step).1 := by
    intro l
    induction l with
    | nil => exact fun c c' _ h => funext fun x => h x (by simp)
    | cons y l ih =>
      intro c c' step h
      refine ih _ _ _ fun x hx => ?_
      by_cases e : x = y
      · subst e; simp
      · rw [Function.update_of_ne e, Function.update_of_ne e]
        exact h x (by simp [e, hx])
  exact key _ c c' step fun x hx => absurd (latticeSites_mem x) hx

/-- Steps 0 to 15 on two by two sites: step 6 sets the spins 0, 1, 1, 0. -/
example : (latticeSites 2 2).map (ergodicSpin (M := 2) (N := 2) (d := 2) (fun _ => 1) 6)
    = [0, 1, 1, 0] := by decide +kernel

/-- All of the configurations differ. -/
example : ((List.range 16).map fun s =>
    (latticeSites 2 2).map (ergodicSpin (M := 2) (N := 2) (d := 2) (fun _ => 0) s)).Nodup := by
  decide +kernel

section tables

variable [Zero K] [DecidableEq K]

/-- **C55.**  The table of an operator has, for spins in and spins out, exactly the elements which are not
zero, each once and in order; a row is missing exactly if all of its elements are zero. -/
theorem C55_elements {d body : ℕ} (hd : 0 < d) (hb : 0 < body) (value : List ℕ → K) :
    ∃ t, findElement d body value = .ok t ∧
      (∀ a, (OMap.find? t a = none ↔
        ¬ ∃ b, Spins d body a ∧ Spins d body b ∧ value (a ++ b) ≠ 0)) ∧
      ∀ a row, OMap.find? t a = some row →
        (row.map Prod.fst).Pairwise (· < ·) ∧
        ∀ b v, (b, v) ∈ row ↔ Spins d body b ∧ value (a ++ b) = v ∧ v ≠ 0 := by
  obtain ⟨t, ht, h1, h2, h3⟩ := findElement_spec hd hb value
  refine ⟨t, ht, fun a => ⟨?_, ?_⟩, ?_⟩
  · rintro h ⟨b, hb⟩
    exact h3 a b hb h
  · intro h
    cases hf : OMap.find? t a with
    | none => rfl
    | some r => exact absurd (h2 a r hf).2.1 h
  · intro a row hf
    obtain ⟨g1, ⟨b0, g2⟩, g3⟩ := h2 a row hf
    refine ⟨g1, fun b v => ?_⟩
    rw [← OMap.find?_iff_mem g1.nodup, g3]
    constructor
    · rintro ⟨⟨-, k1, k2⟩, rfl⟩
      exact ⟨k1, rfl, k2⟩
    · rintro ⟨k1, rfl, k2⟩
      exact ⟨⟨g2.1, k1, k2⟩, rfl⟩

/-- **C55.**  The table of hoppings has exactly the elements off the diagonal which are not zero; a row is
missing exactly if all of its elements, the diagonal one too, are zero. -/
theorem C55_hoppings {d body : ℕ} (hd : 0 < d) (hb : 0 < body) (value : List ℕ → K) :
    ∃ t, findHopping d body value = .ok t ∧
      (∀ a, (OMap.find? t a = none ↔
        ¬ ∃ b, Spins d body a ∧ Spins d body b ∧ value (a ++ b) ≠ 0)) ∧
      ∀ a row, OMap.find? t a = some row →
        (row.map Prod.fst).Pairwise (· < ·) ∧
        ∀ b v, (b, v) ∈ row ↔ Spins d body b ∧ a ≠ b ∧ value (a ++ b) = v ∧ v ≠ 0 := by
  obtain ⟨t, ht, h1, h2, h3⟩ := findHopping_spec hd hb value
  refine ⟨t, ht, fun a => ⟨?_, ?_⟩, ?_⟩
  · rintro h ⟨b, hb⟩
    exact h3 a b hb h
  · intro h
    cases hf : OMap.find? t a with
    | none => rfl
    | some r => exact absurd (h2 a r hf).2.1 h
  · intro a row hf
    obtain ⟨g1, ⟨b0, g2⟩, g3⟩ := h2 a row hf
    refine ⟨g1, fun b v => ?_⟩
    rw [← OMap.find?_iff_mem g1.nodup, g3]
    constructor
    · rintro ⟨⟨⟨-, k1, k2⟩, k3⟩, rfl⟩
      exact ⟨k1, k3, rfl, k2⟩
    · rintro ⟨k1, k3, rfl, k2⟩
      exact ⟨⟨⟨g2.1, k1, k2⟩, k3⟩, rfl⟩

/-- **C55.**  Spins whose row of the operator is zero make both `markov` and `ergodic` throw: the search
for the row does. -/
theorem C55_zero_row {d body : ℕ} (hd : 0 < d) (hb : 0 < body) (value : List ℕ → K) (a : List ℕ)
    (h : ∀ b, Spins d body b → value (a ++ b) = 0) :
    ((findElement d body value).bind fun t => tableRow t a) = .error "map::at" ∧
    ((findHopping d body value).bind fun t => tableRow t a) = .error "map::at" := by
  have hn : ¬ ∃ b, Spins d body a ∧ Spins d body b ∧ value (a ++ b) ≠ 0 :=
    fun ⟨b, _, h1, h2⟩ => h2 (h b h1)
  obtain ⟨t, ht, h1, -⟩ := C55_elements hd hb value
  obtain ⟨t', ht', h1', -⟩ := C55_hoppings hd hb value
  rw [ht, ht']
  constructor
  · show tableRow t a = _
    rw [tableRow, (h1 a).2 hn]
  · show tableRow t' a = _
    rw [tableRow, (h1' a).2 hn]

/-- **C55.**  A constant term (no sites) is undefined. -/
theorem C55_no_sites (d : ℕ) (value : List ℕ → K) :
    findElement d 0 value = .ub ∧ findHopping d 0 value = .ub := ⟨rfl, rfl⟩

end tables

/-- **C55.**  As long as an address is used for one tensor only, the cached table is the table: looking up
tensors one after the other, each kept at its address, gives the table of each. -/
theorem C55_cache (table : ℕ → ElementTable K) (cache : List (ℕ × ElementTable K))
    (h : ∀ a t, OMap.find? cache a = some t → t = table a) (address : ℕ) :
    ∃ cache', findCached cache address (.ok (table address)) = .ok (table address, cache') ∧
      ∀ a t, OMap.find? cache' a = some t → t = table a := by
  rw [findCached]
  cases hf : OMap.find? cache address with
  | some t => exact ⟨cache, by rw [h _ _ hf], h⟩
  | none =>
    refine ⟨OMap.set cache address (table address), rfl, ?_⟩
    intro a t ht
    rw [OMap.find?_set] at ht
    by_cases e : a = address
    · rw [if_pos e] at ht
      rw [e]
      exact (Option.some.inj ht).symm
    · rw [if_neg e] at ht
      exact h a t ht

/-- **C55.**  A tensor made at the address of an old one gets the table of the old one, whatever its own
elements are. -/
theorem C55_cache_stale (cache : List (ℕ × ElementTable K)) (address : ℕ) (old new : ElementTable K)
    (h : OMap.find? cache address = none) :
    ∃ cache', findCached cache address (.ok old) = .ok (old, cache') ∧
      findCached cache' address (.ok new) = .ok (old, cache') := by
  refine ⟨OMap.set cache address old, by rw [findCached, h]; rfl, ?_⟩
  have : OMap.find? (OMap.set cache address old) address = some old := by
    rw [OMap.find?_set, if_pos rfl]
  rw [findCached, this]

/-- The exchange of two spins: the elements of `(a, b) → (b, a)` are one. -/
def exchangeValue : List ℕ → ℚ
  | [a, b, c, d] => if a = d ∧ b = c then 1 else 0
  | _ => 0

example : findElement 2 2 exchangeValue = .ok [([0, 0], [([0, 0], 1)]), ([0, 1], [([1, 0], 1)]),
    ([1, 0], [([0, 1], 1)]), ([1, 1], [([1, 1], 1)])] := by decide +kernel

example : findHopping 2 2 exchangeValue = .ok [([0, 0], []), ([0, 1], [([1, 0], 1)]),
    ([1, 0], [([0, 1], 1)]), ([1, 1], [])] := by decide +kernel

/-- The operator which raises a spin: the row of the upper spin is zero. -/
def raiseValue : List ℕ → ℚ
  | [0, 1] => 1
  | _ => 0

example : findElement 2 1 raiseValue = .ok [([0], [([1], 1)])] := by decide +kernel

example : ∀ b, Spins 2 1 b → raiseValue ([1] ++ b) = 0 := by
  rintro b ⟨hb, -⟩
  obtain ⟨x, rfl⟩ := List.length_eq_one_iff.1 hb
  rfl

example : ((findElement 2 1 raiseValue).bind fun t => tableRow t [1]) = .error "map::at" := by
  decide +kernel

example : findCached [] 4096 (findElement 2 1 raiseValue) =
    .ok (([([0], [([1], 1)])], [(4096, [([0], [([1], 1)])])]) :
      ElementTable ℚ × List (ℕ × ElementTable ℚ)) := by
  have : findElement 2 1 raiseValue = .ok [([0], [([1], 1)])] := by decide +kernel
  rw [this]
  rfl

end TAT
