import Verif.Grid.Line
import Verif.Qr.Witness
import Mathlib.Data.String.Basic

/-!
# Helper lemmas: the names of `examples/tools.hpp` and those of `Square.AuxLine`
-/

namespace TAT.Grid

set_option linter.unusedSectionVars false

variable {ν α β : Type} [LinearOrder ν] [Field α] [LinearOrder β] [Zero β]

/-- The string of a label in tools.hpp. -/
def toolString (s : Side → String) : Leg → String
  | (a, .plain) => s a
  | (a, .one) => s a ++ "_1"
  | (a, .two) => s a ++ "_2"
  | (a, .three) => s a ++ "_3"
  | (a, .hole) => s a ++ "_0"

/-- What is assumed: matrix multiplication and the decomposition of LAPACK are right, the names used inside of
contraction and decomposition are different from each other and from those of the edges, different strings have
different names, and the names of the directions are different also with the suffixes.  (In the program the names
inside of the decomposition are `SVD_U`, `SVD_V`.) -/
structure GridEnvOk (e : AuxEnv ν α β) (s : Side → String) : Prop where
  gemm : GemmOk e.ce.gemm
  names : [e.cn.c0, e.cn.c1, e.cn.c2].Nodup
  svd : GesvdOk e.c e.gesvd
  inj : Function.Injective e.nm
  sn : e.sn.u ≠ e.sn.v
  u : ∀ g, e.sn.u ≠ e.nm (toolString s g)
  v : ∀ g, e.sn.v ≠ e.nm (toolString s g)
  dirs : Function.Injective (toolString s)

/-- A string longer than all names. -/
def pad (s : Side → String) : String := s .up ++ s .down ++ s .left ++ s .right ++ "___"

theorem toolString_length (s : Side → String) (g : Leg) : (toolString s g).length < (pad s).length := by
  obtain ⟨x, y⟩ := g
  have h1 : "_0".length = 2 := rfl
  have h2 : "_1".length = 2 := rfl
  have h3 : "_2".length = 2 := rfl
  have h4 : "_3".length = 2 := rfl
  have h5 : "___".length = 3 := rfl
  cases x <;> cases y <;> simp only [toolString, pad, String.length_append, h1, h2, h3, h4, h5] <;> omega

theorem sideString_dirs : Dirs sideString := by
  refine ⟨?_, fun g => ⟨g, rfl⟩⟩
  rintro ⟨x, y⟩ ⟨x', y'⟩ h
  revert h
  cases x <;> cases y <;> cases x' <;> cases y' <;> decide +kernel

open Classical in
/-- From the strings of `Square.AuxLine` to those of tools.hpp. -/
noncomputable def toTool (s : Side → String) (x : String) : String :=
  if h : ∃ g, legString sideString g = x then toolString s h.choose else x ++ pad s

theorem toTool_leg (s : Side → String) (g : Leg) : toTool s (legString sideString g) = toolString s g := by
  have h : ∃ g', legString sideString g' = legString sideString g := ⟨g, rfl⟩
  rw [toTool, dif_pos h, sideString_dirs.inj h.choose_spec]

theorem toTool_injective {s : Side → String} (hs : Function.Injective (toolString s)) :
    Function.Injective (toTool s) := by
  intro x y h
  by_cases hx : ∃ g, legString sideString g = x <;> by_cases hy : ∃ g, legString sideString g = y
  · obtain ⟨g, rfl⟩ := hx
    obtain ⟨g', rfl⟩ := hy
    rw [toTool_leg, toTool_leg] at h
    rw [hs h]
  · obtain ⟨g, rfl⟩ := hx
    rw [toTool_leg, toTool, dif_neg hy] at h
    have := toolString_length s g
    rw [h, String.length_append] at this
    omega
  · obtain ⟨g, rfl⟩ := hy
    rw [toTool_leg, toTool, dif_neg hx] at h
    have := toolString_length s g
    rw [← h, String.length_append] at this
    omega
  · rw [toTool, toTool, dif_neg hx, dif_neg hy] at h
    have h' := congrArg String.toList h
    rw [String.toList_append, String.toList_append] at h'
    exact String.toList_inj.1 (List.append_cancel_right h')

/-- The environment with the names of `Square.AuxLine`.  QR decompositions are not used. -/
noncomputable def aliased (e : AuxEnv ν α β) (s : Side → String) : AuxEnv ν α β :=
  { e with
    lp := (exists_lapackQrOk (K := α)).choose
    qn := ⟨e.nm (pad s), e.nm (pad s ++ "_")⟩
    nm := fun x => e.nm (toTool s x) }

theorem aliased_legName (e : AuxEnv ν α β) (s : Side → String) (g : Leg) :
    legName (aliased e s).nm sideString g = e.nm (toolString s g) := by
  show e.nm (toTool s (legString sideString g)) = _
  rw [toTool_leg]

theorem aliased_ok {e : AuxEnv ν α β} {s : Side → String} (he : GridEnvOk e s) : AuxEnvOk (aliased e s) where
  gemm := he.gemm
  names := he.names
  qr := (exists_lapackQrOk (K := α)).choose_spec
  svd := he.svd
  inj := he.inj.comp (toTool_injective he.dirs)
  qn := fun h => by
    have := congrArg String.length (he.inj h)
    rw [String.length_append] at this
    have h1 : "_".length = 1 := rfl
    omega
  x1 := fun g h => by
    rw [aliased_legName] at h
    have := toolString_length s g
    rw [← he.inj h] at this
    omega
  x2 := fun g h => by
    rw [aliased_legName] at h
    have := toolString_length s g
    rw [← he.inj h, String.length_append] at this
    omega
  sn := he.sn
  u := fun g => by rw [aliased_legName]; exact he.u g
  v := fun g => by rw [aliased_legName]; exact he.v g

/-- Other strings for the names. -/
def Names.map (n : Names) (f : String → String) : Names :=
  ⟨f n.up, f n.down, f n.left, f n.right, f n.up1, f n.up2, f n.down1, f n.down2, f n.left1, f n.left2,
    f n.right1, f n.right2⟩

theorem labelled_map (s : Side → String) :
    (labelled sideString).map (toTool s) = namesOf (s .up) (s .down) (s .left) (s .right) := by
  have h := toTool_leg s
  have h1 : ∀ x, toTool s (sideString x) = s x := fun x => h (x, .plain)
  have h2 : ∀ x, toTool s (sideString x ++ "1") = s x ++ "_1" := fun x => h (x, .one)
  have h3 : ∀ x, toTool s (sideString x ++ "2") = s x ++ "_2" := fun x => h (x, .two)
  simp only [labelled, Names.map, namesOf, h1, h2, h3]

theorem products_aliased (e : AuxEnv ν α β) (s : Side → String) (n : Names) :
    ∀ l1 l2, products (aliased e s) n l1 l2 = products e (n.map (toTool s)) l1 l2
  | t1 :: l1, t2 :: l2 => by
    rw [products, products, products_aliased e s n l1 l2]
    rfl
  | [], _ => by rw [products, products] <;> simp
  | _ :: _, [] => by rw [products, products] <;> simp

theorem canonical_aliased (e : AuxEnv ν α β) (s : Side → String) (n : Names) :
    ∀ k l, canonical (aliased e s) n k l = canonical e (n.map (toTool s)) k l
  | 0, l => by rw [canonical, canonical] <;> simp
  | k + 1, [] => by rw [canonical, canonical] <;> simp
  | k + 1, [_] => by rw [canonical, canonical] <;> simp
  | k + 1, t :: t' :: l => by
    rw [canonical, canonical]
    have ih := fun l => canonical_aliased e s n k l
    simp only [ih]
    rfl

theorem truncated_aliased (e : AuxEnv ν α β) (s : Side → String) (n : Names) (cut : ℕ) :
    ∀ l, truncated (aliased e s) n cut l = truncated e (n.map (toTool s)) cut l
  | [] => rfl
  | t :: l => by
    rw [truncated, truncated, truncated_aliased e s n cut l]
    rfl

theorem oneLine_aliased (e : AuxEnv ν α β) (s : Side → String) (l1 l2 : List (Tensor ν NoSymmetry α)) (cut : ℕ) :
    twoLineToOneLine e (s .up) (s .down) (s .left) (s .right) l1 l2 cut =
      oneLine (aliased e s) (labelled sideString) l1 l2 cut := by
  rw [twoLineToOneLine, ← labelled_map, oneLine, oneLine, products_aliased]
  simp only [canonical_aliased, truncated_aliased]

/-! ## from the specification to the labels -/

variable {e : AuxEnv ν α β} {s : Side → String}

theorem aliased_side (e : AuxEnv ν α β) (s : Side → String) (x : Side) :
    legName (aliased e s).nm sideString (x, .plain) = e.nm (s x) := aliased_legName e s (x, .plain)

theorem IsSite.on (he : GridEnvOk e s) {t : Tensor ν NoSymmetry α} {l r u d : Option ℕ}
    (h : IsSite e.nm s t l r u d) : SiteOn (aliased e s) sideString t l r u d := by
  have hι : Function.Injective (legName (aliased e s).nm sideString) := (aliased_ok he).inj.comp sideString_dirs.inj
  refine ⟨h.dense, fun n hn => ?_, ?_⟩
  · obtain ⟨x, rfl⟩ := h.only n hn
    exact ⟨(x, .plain), (aliased_side e s x).symm⟩
  have ho : ∀ x m, m ≠ Mark.plain → gleg (legName (aliased e s).nm sideString) t (x, m) = none := fun x m hm => by
    by_contra hne
    obtain ⟨g, hg⟩ := h.only _ hne
    rw [← aliased_side e s g] at hg
    have := hι hg
    simp only [Prod.mk.injEq] at this
    exact hm this.2
  rintro ⟨x, m⟩
  by_cases hm : m = .plain
  · subst hm
    rw [gleg, aliased_side]
    cases x
    · exact h.up
    · exact h.down
    · exact h.left
    · exact h.right
  · rw [ho x m hm]
    cases x <;> cases m <;> first | rfl | exact absurd rfl hm

theorem isSite_of (he : GridEnvOk e s) {t : Tensor ν NoSymmetry α} {l r u d : Option ℕ}
    (h : SiteOn (aliased e s) sideString t l r u d) : IsSite e.nm s t l r u d := by
  have hl : ∀ x, leg t (e.nm (s x)) = siteLegs l r u d (x, .plain) := fun x => by
    rw [← aliased_side]
    exact h.legs _
  refine ⟨h.dense, hl .left, hl .right, hl .up, hl .down, fun n hn => ?_⟩
  obtain ⟨⟨x, m⟩, rfl⟩ := h.only n hn
  have hg := h.legs (x, m)
  rw [gleg] at hg
  refine ⟨x, ?_⟩
  cases m
  · exact aliased_side e s x
  all_goals
    rw [hg] at hn
    cases x <;> exact absurd rfl hn

theorem siteVal_elem (he : GridEnvOk e s) {t : Tensor ν NoSymmetry α} {l r u d : Option ℕ}
    (h : SiteOn (aliased e s) sideString t l r u d) : siteVal (aliased e s) sideString t = elem e.nm s t := by
  have hι : Function.Injective (legName (aliased e s).nm sideString) := (aliased_ok he).inj.comp sideString_dirs.inj
  have hinj : ∀ x y, e.nm (s x) = e.nm (s y) ↔ x = y := fun x y => by
    rw [← aliased_side, ← aliased_side, hι.eq_iff]
    simp
  funext a b z y
  rw [siteVal, elem, val_eq_gval hι h]
  refine gval_congr hι h ?_
  rintro ⟨x, m⟩ hne
  cases m
  · rw [aliased_side]
    cases x <;> simp [siteIdx, at4, hinj]
  all_goals cases x <;> exact absurd rfl hne

theorem IsRow.on (he : GridEnvOk e s) {N : ℕ} {t : ℕ → Tensor ν NoSymmetry α} {h u d : ℕ → Option ℕ}
    (hr : IsRow e.nm s N t h u d) : RowOn (aliased e s) sideString N t h u d :=
  ⟨hr.left, hr.right, fun j hj => (hr.site j hj).on he⟩

theorem isRow_of (he : GridEnvOk e s) {N : ℕ} {t : ℕ → Tensor ν NoSymmetry α} {h u d : ℕ → Option ℕ}
    (hr : RowOn (aliased e s) sideString N t h u d) : IsRow e.nm s N t h u d :=
  ⟨hr.left, hr.right, fun j hj => isSite_of he (hr.site j hj)⟩

theorem lineVal_rowValue (he : GridEnvOk e s) {N : ℕ} {t : ℕ → Tensor ν NoSymmetry α} {h u d : ℕ → Option ℕ}
    (hr : RowOn (aliased e s) sideString N t h u d) (z y : ℕ → ℕ) :
    lineVal (aliased e s) sideString N t h z y = rowValue e.nm s N t h z y := by
  rw [lineVal, rowChain, chain, rowValue]
  refine Finset.sum_congr rfl fun q _ => Finset.prod_congr rfl fun j _ => ?_
  rw [siteVal_elem he (hr.site j j.isLt)]

end TAT.Grid
