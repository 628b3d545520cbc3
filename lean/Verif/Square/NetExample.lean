import Verif.Square.ConvProps
import Verif.Square.DenseNew

/-!
# A lattice of two rows and two columns

The cases of C63 and the following properties.
-/

namespace TAT

/-- What the operations are given, with the names of the program. -/
def netEnv0 (lp : LapackQr ℚ) : NetEnv String ℚ ℚ := { auxEnv0 lp with abs := fun x => |x| }

theorem string_comma (g : NetLabel) : g.string.toList.head? ≠ some ',' := by
  cases g with
  | column j => simp [NetLabel.string]
  | «at» i j => simp [NetLabel.string]
  | _ => decide

theorem comma_ne (n : String) (hn : n.toList.head? = some ',') (g : NetLabel) : n ≠ g.string := fun h =>
  string_comma g (h ▸ hn)

/-- What is assumed holds for the names of the program. -/
theorem netEnv0_ok {lp : LapackQr ℚ} (hlp : LapackQrOk lp) : NetEnvOk (netEnv0 lp) where
  gemm := refGemm_ok
  names := (by decide : [",Contract_0", ",Contract_1", ",Contract_2"].Nodup)
  qr := hlp
  svd := refGesvd_ok
  inj := fun _ _ h => h
  qn := (by decide : ",QR_1" ≠ ",QR_2")
  x1 := comma_ne ",QR_1" (by decide)
  x2 := comma_ne ",QR_2" (by decide)
  sn := (by decide : ",SVD_U" ≠ ",SVD_V")
  u := comma_ne ",SVD_U" (by decide)
  v := comma_ne ",SVD_V" (by decide)
  c_zero := fun _ => Iff.rfl
  c_mul := fun _ _ => rfl
  abs_nonneg := fun x => _root_.abs_nonneg x
  abs_zero := fun _ => abs_eq_zero

/-- A tensor with edges of dimension two. -/
def cube (names : List String) (d : List ℚ) : Tensor String NoSymmetry ℚ :=
  ⟨names, ⟨names.map fun _ => ⟨false, [(0, 2)]⟩, [(names.map fun _ => 0, d)]⟩⟩

theorem cube_edges {names : List String} (hn : names.Nodup) {d : List ℚ} (hd : d.length = 2 ^ names.length) :
    Dense (cube names d) ∧ ∀ m, leg (cube names d) m = if m ∈ names then some 2 else none := by
  obtain ⟨h1, h2⟩ := dense_plain (t := cube names d) (dims := names.map fun _ => 2) hn (by simp [cube])
    (by simp [cube, plainEdge]) (by
      simp only [cube, List.map_cons, List.map_nil, hd, List.map_const', List.prod_replicate,
        List.length_replicate])
    (by simp)
  refine ⟨h1, fun m => ?_⟩
  split
  · next h =>
    obtain ⟨i, hi, rfl⟩ := List.mem_iff_getElem.1 h
    rw [show names[i] = (cube names d).names[i]'hi from rfl, h2 i hi]
    simp
  · next h => exact leg_eq_none.2 h

theorem cube_site {names : List String} (hn : names.Nodup) {d : List ℚ} (hd : d.length = 2 ^ names.length)
    {l r u b : Option ℕ} (hs : ∀ n ∈ names, n ∈ ["L", "R", "U", "D", "P"])
    (hl : (if "L" ∈ names then some 2 else none) = l) (hr : (if "R" ∈ names then some 2 else none) = r)
    (hu : (if "U" ∈ names then some 2 else none) = u) (hb : (if "D" ∈ names then some 2 else none) = b)
    (hp : "P" ∈ names) : SiteEdges id (cube names d) l r u b 2 := by
  obtain ⟨h1, h2⟩ := cube_edges hn hd
  refine ⟨h1, (h2 _).trans hl, (h2 _).trans hr, (h2 _).trans hu, (h2 _).trans hb, (h2 _).trans (if_pos hp),
    fun n hn => ?_⟩
  rw [h2] at hn
  split at hn
  · next h => simpa using hs n h
  · exact absurd rfl hn

/-- The four sites, in different orders of their edges. -/
def netSite0 (p : Pos) : Tensor String NoSymmetry ℚ :=
  if p = (0, 0) then cube ["P", "R", "D"] [1, 2, 0, 1, 3, 1, 1, 2]
  else if p = (0, 1) then cube ["D", "P", "L"] [1, 0, 2, 1, 1, 1, 0, 2]
  else if p = (1, 0) then cube ["U", "R", "P"] [0, 1, 1, 1, 2, 1, 0, 3]
  else cube ["L", "U", "P"] [2, 1, 0, 3, 1, 1, 1, 0]

/-- Two of the four edges have an environment. -/
def netState0 : NetState String ℚ ℚ where
  site := netSite0
  env := fun b p => if b = false ∧ p = (0, 0) then some [(0, [2, 1])]
    else if b = true ∧ p = (0, 1) then some [(0, [1, 3])] else none

theorem netState0_on : NetworkOn id 2 2 2 netState0 auxH0 auxV0 := by
  refine ⟨⟨fun i hi j hj => ?_, fun _ => rfl, fun _ => rfl, fun _ => rfl, fun _ => rfl⟩, fun p S h => ?_, fun p S h => ?_⟩
  · obtain rfl | rfl : i = 0 ∨ i = 1 := by omega
    all_goals obtain rfl | rfl : j = 0 ∨ j = 1 := by omega
    · exact cube_site (by decide) rfl (by decide) rfl rfl rfl rfl (by decide)
    · exact cube_site (by decide) rfl (by decide) rfl rfl rfl rfl (by decide)
    · exact cube_site (by decide) rfl (by decide) rfl rfl rfl rfl (by decide)
    · exact cube_site (by decide) rfl (by decide) rfl rfl rfl rfl (by decide)
  · simp only [netState0, true_and, Bool.false_eq_true, false_and, if_false, Option.ite_none_right_eq_some,
      Option.some.injEq] at h
    exact ⟨0, 0, h.1, by decide, by decide, _, h.2.symm, rfl⟩
  · simp only [netState0, true_and, Bool.true_eq_false, false_and, if_false, Option.ite_none_right_eq_some,
      Option.some.injEq] at h
    exact ⟨0, 1, h.1, by decide, by decide, _, h.2.symm, rfl⟩

/-- One amplitude, with and without the environments. -/
theorem netAmp0 : networkAmp id id auxH0 auxV0 netState0 (fun x : LatticeSite 2 2 => (x.1 : Fin 2)) = 83 ∧
    sitesAmp id auxH0 auxV0 (fun i j => netState0.site (i, j)) (fun x : LatticeSite 2 2 => (x.1 : Fin 2)) = 22 := by
  decide +kernel

/-- C63 applies to the example: the lattices can be made, and the vector is not zero. -/
example : ∃ lp : LapackQr ℚ, ∃ site w w' c, samplingOfUpdate (netEnv0 lp) 2 2 netState0 = .ok site ∧
    exactOfSampling (netEnv0 lp) 2 2 site = .ok w ∧ exactOfUpdate (netEnv0 lp) 2 2 netState0 = .ok w' ∧ c ≠ 0 ∧
    ∀ x : SpinConfig 2 2 2, amplitude id w x = c * amplitude id w' x := by
  obtain ⟨lp, hlp⟩ := exists_lapackQrOk (K := ℚ)
  refine ⟨lp, C63_both_ways (e := netEnv0 lp) (netEnv0_ok hlp) netState0_on ⟨fun x => x.1, fun h => ?_⟩⟩
  have := netAmp0.1
  rw [show networkAmp id id auxH0 auxV0 netState0 (fun x : LatticeSite 2 2 => (x.1 : Fin 2)) = 0 from h] at this
  exact absurd this (by decide)

/-- The vector made from the lattice without environments, which is a different one. -/
example : ∃ lp : LapackQr ℚ, ∃ w c, exactOfSampling (netEnv0 lp) 2 2 (fun i j => netState0.site (i, j)) = .ok w ∧
    c ≠ 0 ∧ amplitude id w (fun x : LatticeSite 2 2 => (x.1 : Fin 2)) = c * 22 := by
  obtain ⟨lp, hlp⟩ := exists_lapackQrOk (K := ℚ)
  rcases C63_exact_of_sampling (e := netEnv0 lp) (netEnv0_ok hlp) netState0_on.sites with ⟨w, c, h1, -, h3, h4⟩ | ⟨-, h⟩
  · exact ⟨lp, w, c, h1, h3, (h4 _).trans (by rw [show sitesAmp (netEnv0 lp).nm auxH0 auxV0 _ _ = _ from netAmp0.2])⟩
  · have := netAmp0.2
    rw [show sitesAmp id auxH0 auxV0 (fun i j => netState0.site (i, j)) (fun x : LatticeSite 2 2 => (x.1 : Fin 2)) = 0
      from h _] at this
    exact absurd this (by decide)

/-- A lattice all of whose amplitudes vanish: the code divides by zero. -/
example : ∃ lp : LapackQr ℚ, samplingOfUpdate (netEnv0 lp) 1 1
    (updateOfSampling fun _ => cube ["P"] [0, 0]) = .error "division by zero" :=
  ⟨⟨fun _ _ _ => none, fun _ _ _ _ _ => none, fun _ _ _ => none, fun _ _ _ _ _ => none⟩, rfl⟩

end TAT
