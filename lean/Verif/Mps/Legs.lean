import Verif.Mps.Model
import Verif.Square.AuxLegs
import Verif.Square.DenseArith

/-!
# Helper lemmas for chains: the edges and elements of the tensors in `energy`
-/

namespace TAT.Mps

set_option linter.unusedSectionVars false

/-- The names in mps.cpp. -/
inductive MpsLab where
  | phy | left | right | left1 | left2 | right1 | right2 | phyA | phyB | i0 | i1 | o0 | o1
  deriving DecidableEq

def MpsLab.text : MpsLab → String
  | .phy => "Phy" | .left => "Left" | .right => "Right" | .left1 => "Left1" | .left2 => "Left2"
  | .right1 => "Right1" | .right2 => "Right2" | .phyA => "PhyA" | .phyB => "PhyB" | .i0 => "I0"
  | .i1 => "I1" | .o0 => "O0" | .o1 => "O1"

theorem MpsLab.text_injective : Function.Injective MpsLab.text := by
  intro a b h
  cases a <;> cases b <;> first | rfl | (exact absurd h (by decide))

variable {ν α β : Type} [LinearOrder ν] [Field α] [LinearOrder β] [Zero β] {e : AuxEnv ν α β}

/-- What is assumed of the calls of BLAS and LAPACK, of the names and of the internal names. -/
structure MpsEnvOk (e : AuxEnv ν α β) : Prop where
  gemm : GemmOk e.ce.gemm
  names : [e.cn.c0, e.cn.c1, e.cn.c2].Nodup
  inj : Function.Injective e.nm

def mpsName (e : AuxEnv ν α β) (g : MpsLab) : ν := e.nm g.text

/-- Dimensions of the edges, and the elements as a function of the indices. -/
def Shows (e : AuxEnv ν α β) (t : Tensor ν NoSymmetry α) (T : MpsLab → Option ℕ)
    (F : (MpsLab → ℕ) → α) : Prop :=
  HasLegs (mpsName e) t T ∧ ∀ f, gval (mpsName e) t f = F f

theorem Shows.cast {t : Tensor ν NoSymmetry α} {T T' : MpsLab → Option ℕ} {F F' : (MpsLab → ℕ) → α}
    (h : Shows e t T F) (hT : ∀ g, T g = T' g) (hF : ∀ f, F f = F' f) : Shows e t T' F' :=
  ⟨⟨h.1.dense, h.1.only, fun g => (h.1.legs g).trans (hT g)⟩, fun f => (h.2 f).trans (hF f)⟩

theorem mpsName_injective (he : MpsEnvOk e) : Function.Injective (mpsName e) :=
  he.inj.comp MpsLab.text_injective

def texts (l : List (MpsLab × MpsLab)) : List (String × String) := l.map fun p => (p.1.text, p.2.text)

theorem Shows.join (he : MpsEnvOk e) {t1 t2 : Tensor ν NoSymmetry α} {T1 T2 : MpsLab → Option ℕ}
    {F1 F2 : (MpsLab → ℕ) → α} (h1 : Shows e t1 T1 F1) (h2 : Shows e t2 T2 F2)
    (pairs : List (MpsLab × MpsLab)) (hp1 : (pairs.map Prod.fst).Nodup)
    (hp2 : (pairs.map Prod.snd).Nodup) (hm : ∀ c ∈ pairs, T1 c.1 = T2 c.2)
    (hd : ∀ g, g ∉ pairs.map Prod.fst → g ∉ pairs.map Prod.snd → T1 g = none ∨ T2 g = none) :
    ∃ r, e.join t1 t2 (texts pairs) = .ok r ∧ Shows e r (contractLegs T1 T2 pairs) fun f =>
      sumPairs (fun g => (T1 g).getD 1) (fun x y => F1 x * F2 y) pairs f f := by
  obtain ⟨r, r1, r2, r3⟩ := label_contract (mpsName_injective he) e.ce he.gemm he.names h1.1 h2.1 pairs
    hp1 hp2 hm hd
  refine ⟨r, ?_, r2, fun f => ?_⟩
  · rw [← r1, AuxEnv.join, texts, List.map_map]
    rfl
  · rw [r3]
    congr 1
    funext x y
    rw [h1.2, h2.2]

theorem Shows.rename (he : MpsEnvOk e) {t : Tensor ν NoSymmetry α} {T : MpsLab → Option ℕ}
    {F : (MpsLab → ℕ) → α} (h : Shows e t T F) (d : List (MpsLab × MpsLab))
    (h1 : (d.map Prod.fst).Nodup) (h2 : (d.map Prod.snd).Nodup) (hd : ∀ c ∈ d, T c.2 = none) :
    Shows e (e.rename t (texts d)) (renameLegs T d) fun f => F fun g => f (renameTo d g) := by
  obtain ⟨r1, r2⟩ := label_rename (mpsName_injective he) h.1 d h1 h2 hd
  have : e.rename t (texts d) =
      edgeRename t (OMap.ofList (d.map fun p => (mpsName e p.1, mpsName e p.2))) := by
    rw [AuxEnv.rename, texts, List.map_map]
    rfl
  rw [this]
  exact ⟨r1, fun f => by rw [r2, h.2]⟩

theorem one_shows : Shows e (oneTensor : Tensor ν NoSymmetry α) (fun _ => none) fun _ => 1 := by
  have hl : ∀ n, leg (oneTensor : Tensor ν NoSymmetry α) n = none :=
    fun n => leg_eq_none.2 (by simp [oneTensor])
  refine ⟨⟨⟨⟨rfl, by simp [oneTensor], by simp [oneTensor], rfl, rfl⟩, fun n => ?_⟩,
    fun n hn => absurd (hl n) hn, fun g => hl _⟩, fun _ => rfl⟩
  rw [legDim, hl]
  exact Nat.one_pos

theorem Shows.only {t : Tensor ν NoSymmetry α} {F : (MpsLab → ℕ) → α}
    (h : Shows e t (fun _ => none) F) (f : MpsLab → ℕ) : onlyElement t = .ok (F f) := by
  have hl : ∀ n, leg t n = none := fun n => by
    by_contra hn
    obtain ⟨g, rfl⟩ := h.1.only n hn
    exact hn (h.1.legs g)
  have := dense_only h.1.dense hl id (Function.extend (mpsName e) f fun _ => 0)
  have e1 := (C50_to (id : α → α) h.1.dense.wf).1
  have e2 : convertTo id t = t := by
    rw [e1]
    rcases t with ⟨n, ed, b⟩
    simp [mapTensor]
  rw [e2] at this
  rw [this, ← h.2 f]
  rfl

/-! ## sites -/

/-- The dimension of an edge that may be missing. -/
def bd (b : Option ℕ) : ℕ := b.getD 1

def siteLegsOf (d : ℕ) (b b' : Option ℕ) : MpsLab → Option ℕ
  | .phy => some d | .left => b | .right => b' | _ => none

def pairLegs (g1 g2 : MpsLab) (b1 b2 : Option ℕ) (g : MpsLab) : Option ℕ :=
  if g = g1 then b1 else if g = g2 then b2 else none

theorem leftStep_shows (he : MpsEnvOk e) {l t : Tensor ν NoSymmetry α} {d : ℕ} {b b' : Option ℕ}
    {L : ℕ → ℕ → α} {A : ℕ → ℕ → ℕ → α}
    (hl : Shows e l (pairLegs .right1 .right2 b b) fun f => L (f .right1) (f .right2))
    (ht : Shows e t (siteLegsOf d b b') fun f => A (f .phy) (f .left) (f .right)) :
    ∃ r, mpsLeftStep e l t = .ok r ∧
      Shows e r (pairLegs .right1 .right2 b' b') fun f =>
        ∑ l2 ∈ Finset.range (bd b), ∑ s ∈ Finset.range d,
          (∑ l1 ∈ Finset.range (bd b), L l1 l2 * A s l1 (f .right1)) * A s l2 (f .right2) := by
  obtain ⟨a, a1, a2⟩ := hl.join he ht [(.right1, .left)] (by simp) (by simp)
    (by simp [pairLegs, siteLegsOf]) (by
      intro g
      cases g <;> simp [pairLegs, siteLegsOf])
  have r2 := a2.rename he [(.right, .right1)] (by simp) (by simp) (by
    simp [contractLegs, pairLegs, siteLegsOf])
  obtain ⟨c, c1, c2⟩ := r2.join he ht [(.right2, .left), (.phy, .phy)] (by simp) (by simp)
    (by simp [contractLegs, renameLegs, pairLegs, siteLegsOf]) (by
      intro g
      cases g <;> simp [contractLegs, renameLegs, pairLegs, siteLegsOf])
  have r3 := c2.rename he [(.right, .right2)] (by simp) (by simp) (by
    simp [contractLegs, renameLegs, pairLegs, siteLegsOf])
  refine ⟨_, ?_, r3.cast (fun g => ?_) fun f => ?_⟩
  · unfold mpsLeftStep
    rw [show [("Right1", "Left")] = texts [(.right1, .left)] from rfl, a1, Outcome.bind,
      show [("Right2", "Left"), ("Phy", "Phy")] = texts [(.right2, .left), (.phy, .phy)] from rfl,
      show [("Right", "Right1")] = texts [(.right, .right1)] from rfl, c1, Outcome.bind]
    rfl
  · cases g <;> simp [contractLegs, renameLegs, pairLegs, siteLegsOf]
  · simp [sumPairs, contractLegs, renameLegs, renameTo, pairLegs, siteLegsOf, bd, Function.update]

theorem rightStep_shows (he : MpsEnvOk e) {r t : Tensor ν NoSymmetry α} {d : ℕ} {b b' : Option ℕ}
    {R : ℕ → ℕ → α} {A : ℕ → ℕ → ℕ → α}
    (hr : Shows e r (pairLegs .left1 .left2 b' b') fun f => R (f .left1) (f .left2))
    (ht : Shows e t (siteLegsOf d b b') fun f => A (f .phy) (f .left) (f .right)) :
    ∃ u, mpsRightStep e r t = .ok u ∧
      Shows e u (pairLegs .left1 .left2 b b) fun f =>
        ∑ r2 ∈ Finset.range (bd b'), ∑ s ∈ Finset.range d,
          (∑ r1 ∈ Finset.range (bd b'), R r1 r2 * A s (f .left1) r1) * A s (f .left2) r2 := by
  obtain ⟨a, a1, a2⟩ := hr.join he ht [(.left1, .right)] (by simp) (by simp)
    (by simp [pairLegs, siteLegsOf]) (by
      intro g
      cases g <;> simp [pairLegs, siteLegsOf])
  have r2 := a2.rename he [(.left, .left1)] (by simp) (by simp) (by
    simp [contractLegs, pairLegs, siteLegsOf])
  obtain ⟨c, c1, c2⟩ := r2.join he ht [(.left2, .right), (.phy, .phy)] (by simp) (by simp)
    (by simp [contractLegs, renameLegs, pairLegs, siteLegsOf]) (by
      intro g
      cases g <;> simp [contractLegs, renameLegs, pairLegs, siteLegsOf])
  have r3 := c2.rename he [(.left, .left2)] (by simp) (by simp) (by
    simp [contractLegs, renameLegs, pairLegs, siteLegsOf])
  refine ⟨_, ?_, r3.cast (fun g => ?_) fun f => ?_⟩
  · unfold mpsRightStep
    rw [show [("Left1", "Right")] = texts [(.left1, .right)] from rfl, a1, Outcome.bind,
      show [("Left2", "Right"), ("Phy", "Phy")] = texts [(.left2, .right), (.phy, .phy)] from rfl,
      show [("Left", "Left1")] = texts [(.left, .left1)] from rfl, c1, Outcome.bind]
    rfl
  · cases g <;> simp [contractLegs, renameLegs, pairLegs, siteLegsOf]
  · simp [sumPairs, contractLegs, renameLegs, renameTo, pairLegs, siteLegsOf, bd, Function.update]

def operatorLegs (d : ℕ) : MpsLab → Option ℕ
  | .i0 | .i1 | .o0 | .o1 => some d
  | _ => none

/-- The contractions of `energy` for one bond. -/
theorem bond_shows (he : MpsEnvOk e) {l a b h r : Tensor ν NoSymmetry α} {d : ℕ} {b0 b1 b2 : Option ℕ}
    {L R : ℕ → ℕ → α} {A B : ℕ → ℕ → ℕ → α} {H : ℕ → ℕ → ℕ → ℕ → α}
    (hl : Shows e l (pairLegs .right1 .right2 b0 b0) fun f => L (f .right1) (f .right2))
    (ha : Shows e a (siteLegsOf d b0 b1) fun f => A (f .phy) (f .left) (f .right))
    (hb : Shows e b (siteLegsOf d b1 b2) fun f => B (f .phy) (f .left) (f .right))
    (hh : Shows e h (operatorLegs d) fun f => H (f .i0) (f .i1) (f .o0) (f .o1))
    (hr : Shows e r (pairLegs .left1 .left2 b2 b2) fun f => R (f .left1) (f .left2)) :
    ∃ u, ((e.join l a [("Right1", "Left")]).bind fun t =>
      (e.join (e.rename t [("Right", "Right1"), ("Phy", "PhyA")]) b [("Right1", "Left")]).bind fun t =>
      (e.join (e.rename t [("Right", "Right1"), ("Phy", "PhyB")]) h [("PhyA", "I0"), ("PhyB", "I1")]).bind fun t =>
      (e.join t a [("Right2", "Left"), ("O0", "Phy")]).bind fun t =>
      (e.join (e.rename t [("Right", "Right2")]) b [("Right2", "Left"), ("O1", "Phy")]).bind fun t =>
      e.join (e.rename t [("Right", "Right2")]) r [("Right1", "Left1"), ("Right2", "Left2")]) = .ok u ∧
      Shows e u (fun _ => none) fun _ =>
        ∑ r1 ∈ Finset.range (bd b2), ∑ r2 ∈ Finset.range (bd b2),
          (∑ m2 ∈ Finset.range (bd b1), ∑ q ∈ Finset.range d,
            (∑ l2 ∈ Finset.range (bd b0), ∑ p ∈ Finset.range d,
              (∑ x ∈ Finset.range d, ∑ y ∈ Finset.range d,
                (∑ m1 ∈ Finset.range (bd b1),
                  (∑ l1 ∈ Finset.range (bd b0), L l1 l2 * A x l1 m1) * B y m1 r1) * H x y p q) *
                A p l2 m2) * B q m2 r2) * R r1 r2 := by
  obtain ⟨t1, e1, s1⟩ := hl.join he ha [(.right1, .left)] (by simp) (by simp)
    (by simp [pairLegs, siteLegsOf]) (by intro g; cases g <;> simp [pairLegs, siteLegsOf])
  have n1 := (s1.rename he [(.right, .right1), (.phy, .phyA)] (by simp) (by simp) (by
    simp [contractLegs, pairLegs, siteLegsOf])).cast
      (T' := fun g => match g with
        | .right2 => b0 | .phyA => some d | .right1 => b1 | _ => none)
      (F' := fun f => ∑ l1 ∈ Finset.range (bd b0), L l1 (f .right2) * A (f .phyA) l1 (f .right1))
      (fun g => by cases g <;> simp [contractLegs, renameLegs, pairLegs, siteLegsOf])
      (fun f => by simp [sumPairs, renameTo, pairLegs, bd, Function.update])
  obtain ⟨t2, e2, s2⟩ := n1.join he hb [(.right1, .left)] (by simp) (by simp)
    (by simp [siteLegsOf]) (by intro g; cases g <;> simp [siteLegsOf])
  have n2 := (s2.rename he [(.right, .right1), (.phy, .phyB)] (by simp) (by simp) (by
    simp [contractLegs, siteLegsOf])).cast
      (T' := fun g => match g with
        | .right2 => b0 | .phyA => some d | .phyB => some d | .right1 => b2 | _ => none)
      (F' := fun f => ∑ m1 ∈ Finset.range (bd b1),
        (∑ l1 ∈ Finset.range (bd b0), L l1 (f .right2) * A (f .phyA) l1 m1) * B (f .phyB) m1 (f .right1))
      (fun g => by cases g <;> simp [contractLegs, renameLegs, siteLegsOf])
      (fun f => by simp [sumPairs, renameTo, bd, Function.update])
  obtain ⟨t3, e3, s3⟩ := n2.join he hh [(.phyA, .i0), (.phyB, .i1)] (by simp) (by simp)
    (by simp [operatorLegs]) (by intro g; cases g <;> simp [operatorLegs])
  have n3 := s3.cast
      (T' := fun g => match g with
        | .right2 => b0 | .o0 => some d | .o1 => some d | .right1 => b2 | _ => none)
      (F' := fun f => ∑ x ∈ Finset.range d, ∑ y ∈ Finset.range d,
        (∑ m1 ∈ Finset.range (bd b1),
          (∑ l1 ∈ Finset.range (bd b0), L l1 (f .right2) * A x l1 m1) * B y m1 (f .right1)) *
          H x y (f .o0) (f .o1))
      (fun g => by cases g <;> simp [contractLegs, operatorLegs])
      (fun f => by simp [sumPairs, Function.update])
  obtain ⟨t4, e4, s4⟩ := n3.join he ha [(.right2, .left), (.o0, .phy)] (by simp) (by simp)
    (by simp [siteLegsOf]) (by intro g; cases g <;> simp [siteLegsOf])
  have n4 := (s4.rename he [(.right, .right2)] (by simp) (by simp) (by
    simp [contractLegs, siteLegsOf])).cast
      (T' := fun g => match g with
        | .right2 => b1 | .o1 => some d | .right1 => b2 | _ => none)
      (F' := fun f => ∑ l2 ∈ Finset.range (bd b0), ∑ p ∈ Finset.range d,
        (∑ x ∈ Finset.range d, ∑ y ∈ Finset.range d,
          (∑ m1 ∈ Finset.range (bd b1),
            (∑ l1 ∈ Finset.range (bd b0), L l1 l2 * A x l1 m1) * B y m1 (f .right1)) *
            H x y p (f .o1)) * A p l2 (f .right2))
      (fun g => by cases g <;> simp [contractLegs, renameLegs, siteLegsOf])
      (fun f => by simp [sumPairs, renameTo, bd, Function.update])
  obtain ⟨t5, e5, s5⟩ := n4.join he hb [(.right2, .left), (.o1, .phy)] (by simp) (by simp)
    (by simp [siteLegsOf]) (by intro g; cases g <;> simp [siteLegsOf])
  have n5 := (s5.rename he [(.right, .right2)] (by simp) (by simp) (by
    simp [contractLegs, siteLegsOf])).cast
      (T' := fun g => match g with
        | .right2 => b2 | .right1 => b2 | _ => none)
      (F' := fun f => ∑ m2 ∈ Finset.range (bd b1), ∑ q ∈ Finset.range d,
        (∑ l2 ∈ Finset.range (bd b0), ∑ p ∈ Finset.range d,
          (∑ x ∈ Finset.range d, ∑ y ∈ Finset.range d,
            (∑ m1 ∈ Finset.range (bd b1),
              (∑ l1 ∈ Finset.range (bd b0), L l1 l2 * A x l1 m1) * B y m1 (f .right1)) *
              H x y p q) * A p l2 m2) * B q m2 (f .right2))
      (fun g => by cases g <;> simp [contractLegs, renameLegs, siteLegsOf])
      (fun f => by simp [sumPairs, renameTo, bd, Function.update])
  obtain ⟨t6, e6, s6⟩ := n5.join he hr [(.right1, .left1), (.right2, .left2)] (by simp) (by simp)
    (by simp [pairLegs]) (by intro g; cases g <;> simp [pairLegs])
  refine ⟨t6, ?_, s6.cast (fun g => ?_) fun f => ?_⟩
  · have e1' : e.join l a [("Right1", "Left")] = .ok t1 := e1
    have e2' : e.join (e.rename t1 [("Right", "Right1"), ("Phy", "PhyA")]) b [("Right1", "Left")] =
      .ok t2 := e2
    have e3' : e.join (e.rename t2 [("Right", "Right1"), ("Phy", "PhyB")]) h
      [("PhyA", "I0"), ("PhyB", "I1")] = .ok t3 := e3
    have e4' : e.join t3 a [("Right2", "Left"), ("O0", "Phy")] = .ok t4 := e4
    have e5' : e.join (e.rename t4 [("Right", "Right2")]) b [("Right2", "Left"), ("O1", "Phy")] =
      .ok t5 := e5
    have e6' : e.join (e.rename t5 [("Right", "Right2")]) r
      [("Right1", "Left1"), ("Right2", "Left2")] = .ok t6 := e6
    simp only [e1', e2', e3', e4', e5', e6', Outcome.bind]
  · cases g <;> simp [contractLegs, pairLegs]
  · simp only [sumPairs]
    rfl

end TAT.Mps
