import Verif.Lazy.Hist

/-!
# C40, C41: lazy graphs

`LazyHist.Value` is the value an object should have according to the history alone: roots have the value
last given to them, nodes and paths the value of their function.
-/

namespace TAT

variable {V : Type}

/-- C40: after any history in which no snapshot is loaded, reading an existing object gives the value it
should have; it is undefined behaviour exactly if there is none (a root it needs is not set). -/
theorem C40_up_to_date (ops : List (LazyOp V)) (s : LazyState V) (hs : lazyRun ops lazyStart = .ok s)
    (hn : ∀ op ∈ ops, op.isLoad = false) (i : ℕ) (ha : s.alive i = true) :
    (∀ v, (lazyHist ops).Value i v → ∃ s', lazyGet s i = .ok (v, s')) ∧
      ((∀ v, ¬ (lazyHist ops).Value i v) → lazyGet s i = .ub) := by
  have hv := lazyInv_run lazyInv_start ops hs
  have hm := lazyMatch_run lazyInv_start lazyMatch_start ops hs
  have hall := lazyTrack_all ops hn lazyTrackStart (by simp [lazyTrackStart]) lazyStart s rfl
    (by simp [lazyStart]) lazyInv_start hs
  have hG := hall i (by rw [hv.count]; exact hv.wf.alive_lt i ha)
  obtain ⟨h1, h2⟩ := lazyGet_spec s i hv.wf hv.good hG ha
  refine ⟨fun v h => ?_, fun h => h2 fun v hv' => h v ((hm.value hv.wf ha v).1 hv')⟩
  obtain ⟨s', h3, _⟩ := h1 v ((hm.value hv.wf ha v).2 h)
  exact ⟨s', h3⟩

/-- C40, with snapshots: the same for the objects that existed when the snapshot loaded last was taken, and
those made since from such objects. -/
theorem C40_up_to_date_snapshots (ops : List (LazyOp V)) (s : LazyState V)
    (hs : lazyRun ops lazyStart = .ok s) (i : ℕ) (hG : (lazyTrack ops).good i = true)
    (ha : s.alive i = true) :
    (∀ v, (lazyHist ops).Value i v → ∃ s', lazyGet s i = .ok (v, s')) ∧
      ((∀ v, ¬ (lazyHist ops).Value i v) → lazyGet s i = .ub) := by
  have hv := lazyInv_run lazyInv_start ops hs
  have hm := lazyMatch_run lazyInv_start lazyMatch_start ops hs
  obtain ⟨h1, h2⟩ := lazyGet_spec s i hv.wf hv.good hG ha
  refine ⟨fun v h => ?_, fun h => h2 fun v hv' => h v ((hm.value hv.wf ha v).1 hv')⟩
  obtain ⟨s', h3, _⟩ := h1 v ((hm.value hv.wf ha v).2 h)
  exact ⟨s', h3⟩

/-- C40: there is a value, and only one, if all roots are set. -/
theorem C40_defined (ops : List (LazyOp V)) (s : LazyState V) (hs : lazyRun ops lazyStart = .ok s)
    (hr : ∀ j, (lazyHist ops).items[j]? = some .root → (lazyHist ops).roots j ≠ none) (i : ℕ)
    (ha : s.alive i = true) : ∃! v, (lazyHist ops).Value i v := by
  have hv := lazyInv_run lazyInv_start ops hs
  have hm := lazyMatch_run lazyInv_start lazyMatch_start ops hs
  suffices ∃ v, (lazyHist ops).Value i v from
    this.elim fun v h => ⟨v, h, fun w hw => LazyValue.unique hw h⟩
  induction i using Nat.strongRecOn with
  | ind i ih =>
    obtain ⟨it, hi⟩ : ∃ it, s.items[i]? = some it := ⟨_, List.getElem?_eq_getElem (hv.wf.alive_lt i ha)⟩
    have hi' : (lazyHist ops).items[i]? = some it := by
      have e : s.items = (lazyHist ops).items := hm.items
      rw [← e]; exact hi
    have hargs := exists_values (P := fun a v => (lazyHist ops).Value a v) it.args
      fun a hma => ih a (hv.wf.args_lt i it hi a hma) (hv.wf.alive_args i it hi ha a hma).1
    cases it with
    | root =>
      cases hc : (lazyHist ops).roots i with
      | none => exact absurd hc (hr i hi')
      | some v => exact ⟨v, .root i 0 v hi' (by rw [hc]; rfl)⟩
    | node f args =>
      obtain ⟨vs, h1, h2⟩ := hargs
      exact ⟨_, .node i f args vs hi' h1 h2⟩
    | path f args =>
      obtain ⟨vs, h1, h2⟩ := hargs
      exact ⟨_, .path i f args vs hi' h1 h2⟩

/-- C41: loading a snapshot gives every recorded object that still exists the cell it had; every object
that existed when the snapshot was taken has the value it should have had then. -/
theorem C41_restored (ops ops' : List (LazyOp V)) (s1 s2 s3 : LazyState V)
    (h1 : lazyRun ops lazyStart = .ok s1) (h2 : lazyRun (.dump :: ops') s1 = .ok s2)
    (h3 : lazyStep s2 (.load s1.snaps.length) = .ok s3) (i : ℕ) (hi : i < s1.items.length)
    (ha : s3.alive i = true) :
    s1.alive i = true ∧
      (∀ it : LazyItem V, s1.items[i]? = some it → it.isData = true → s3.cells i = s1.cells i) ∧
      ∀ v, (lazyHist (ops ++ .dump :: ops' ++ [.load s1.snaps.length])).Value i v ↔
        (lazyHist ops).Value i v := by
  have hv1 := lazyInv_run lazyInv_start ops h1
  have hm1 : LazyMatch s1 (lazyHist ops) := lazyMatch_run lazyInv_start lazyMatch_start ops h1
  have hv2 := lazyInv_run hv1 _ h2
  have hm2 := lazyMatch_run hv1 hm1 _ h2
  have hm3 := lazyMatch_step hv2 hm2 _ h3
  have hv3 := lazyInv_step hv2 _ h3
  obtain ⟨hd, hd'⟩ : ∃ sd, lazyRun ops' sd = .ok s2 ∧ sd = { s1 with snaps := s1.snaps ++ [lazyDump s1] } :=
    ⟨_, h2, rfl⟩
  obtain ⟨hd1, rfl⟩ := hd'
  have hvd : LazyInv { s1 with snaps := s1.snaps ++ [lazyDump s1] } _ := lazyInv_step hv1 .dump rfl
  obtain ⟨hl, _⟩ := lazyLater_run hvd ops' hd1
  have hsn : s2.snaps[s1.snaps.length]? = some (lazyDump s1) := hl.snaps _ _ (by simp)
  simp only [lazyStep, hsn] at h3
  have e := Outcome.ok.inj h3
  subst e
  have ha2 : ∀ j, (lazyLoad s2 (lazyDump s1)).alive j = true → j < s1.items.length → s1.alive j = true :=
    fun j g1 g2 => hl.alive j g2 g1
  have hcells : ∀ j, s2.alive j = true → j < s1.items.length → ∀ it : LazyItem V,
      s1.items[j]? = some it → it.isData = true →
      (lazyLoad s2 (lazyDump s1)).cells j = s1.cells j := by
    intro j g1 g2 it g3 g4
    have hc := lazyLoad_cells s2.alive (lazyDump s1) s2.cells s1.cells (by
      intro e he
      obtain ⟨x, _, rfl⟩ := List.mem_map.1 he
      rfl) j
    refine Eq.trans hc ?_
    rw [if_pos]
    exact ⟨g1, s1.cells j, List.mem_map.2 ⟨j, List.mem_filter.2 ⟨hv1.wf.graph j it g3 g4,
      ha2 j g1 g2⟩, rfl⟩⟩
  refine ⟨ha2 i ha hi, fun it g1 g2 => hcells i ha hi it g1 g2, fun v => ?_⟩
  have ef : lazyHist (ops ++ .dump :: ops' ++ [.load s1.snaps.length]) =
      ((LazyOp.dump :: ops').foldl LazyHist.step (lazyHist ops)).step (.load s1.snaps.length) := by
    unfold lazyHist
    rw [List.foldl_append, List.foldl_append]
    rfl
  rw [ef, ← hm3.value hv3.wf ha v, ← LazyMatch.value hv1.wf hm1 (ha2 i ha hi) v]
  have hit : ∀ (j : ℕ) (it : LazyItem V), s1.items[j]? = some it → s2.items[j]? = some it := hl.items
  have hit' : ∀ (j : ℕ) (it : LazyItem V), j < s1.items.length → s2.items[j]? = some it →
      s1.items[j]? = some it := by
    intro j it g1 g2
    have g3 := hit j _ (List.getElem?_eq_getElem g1)
    rw [g2] at g3
    rw [Option.some.inj g3]
    exact List.getElem?_eq_getElem g1
  have hP : ∀ (j : ℕ) (it : LazyItem V), (s2.alive j = true ∧ j < s1.items.length) →
      s2.items[j]? = some it → ∀ a ∈ it.args, s2.alive a = true ∧ a < s1.items.length := by
    intro j it hj hit a hma
    have := hv2.wf.args_lt j it hit a hma
    exact ⟨(hv2.wf.alive_args j it hit hj.1 a hma).1, by omega⟩
  constructor
  · exact LazyValue.congr (P := fun j => s2.alive j = true ∧ j < s1.items.length) hP
      (fun j it hj h => hit' j it hj.2 h)
      (fun j hj h => (hcells j hj.1 hj.2 .root (hit' j _ hj.2 h) rfl).symm) ⟨ha, hi⟩
  · exact LazyValue.congr (P := fun j => s2.alive j = true ∧ j < s1.items.length)
      (fun j it hj h => hP j it hj (hit j it h)) (fun j it _ h => hit j it h)
      (fun j hj h => hcells j hj.1 hj.2 .root h rfl) ⟨ha, hi⟩

/-- C41: reading an object that existed when the snapshot was taken (and was up to date) gives, after
loading it, the value it should have had then, whatever happened in between. -/
theorem C41_reads (ops ops' : List (LazyOp V)) (s1 s2 s3 : LazyState V)
    (h1 : lazyRun ops lazyStart = .ok s1) (h2 : lazyRun (.dump :: ops') s1 = .ok s2)
    (h3 : lazyStep s2 (.load s1.snaps.length) = .ok s3) (i : ℕ) (hG : (lazyTrack ops).good i = true)
    (ha : s3.alive i = true) :
    (∀ v, (lazyHist ops).Value i v → ∃ s', lazyGet s3 i = .ok (v, s')) ∧
      ((∀ v, ¬ (lazyHist ops).Value i v) → lazyGet s3 i = .ub) := by
  have hv1 := lazyInv_run lazyInv_start ops h1
  obtain ⟨_, _, hval⟩ := C41_restored ops ops' s1 s2 s3 h1 h2 h3 i (hv1.good.dom i hG) ha
  have hrun : lazyRun (ops ++ .dump :: ops' ++ [.load s1.snaps.length]) lazyStart = .ok s3 := by
    rw [lazyRun_append, lazyRun_append, h1]
    show ((lazyRun (.dump :: ops') s1).bind _) = _
    rw [h2]
    show (lazyStep s2 _).bind _ = _
    rw [h3]
    rfl
  have hg : (lazyTrack (ops ++ .dump :: ops' ++ [.load s1.snaps.length])).good i = true := by
    have e : lazyTrack (ops ++ .dump :: ops' ++ [.load s1.snaps.length]) =
        (ops'.foldl LazyTrack.step ((lazyTrack ops).step (.dump : LazyOp V))).step
          (.load s1.snaps.length : LazyOp V) := by
      unfold lazyTrack
      rw [List.foldl_append, List.foldl_append]
      rfl
    have hs := lazyTrack_saved ops' ((lazyTrack ops).step (.dump : LazyOp V)) s1.snaps.length
      (lazyTrack ops).good (by
        have hl : (lazyTrack ops).saved.length = s1.snaps.length := hv1.length
        show ((lazyTrack ops).saved ++ [(lazyTrack ops).good])[s1.snaps.length]? = _
        rw [← hl]
        simp)
    rw [e]
    show (((ops'.foldl LazyTrack.step _).saved[s1.snaps.length]?).getD _) i = true
    rw [hs]
    exact hG
  obtain ⟨h4, h5⟩ := C40_up_to_date_snapshots _ s3 hrun i hg ha
  exact ⟨fun v h => h4 v ((hval v).2 h), fun h => h5 fun v hv => h v ((hval v).1 hv)⟩

/-- Reading an object after a history. -/
def lazyRead (ops : List (LazyOp V)) (i : ℕ) : Outcome V :=
  (lazyRun ops lazyStart).bind fun s => (lazyGet s i).bind fun r => .ok r.1

/-- A history: root 0 is 1, node 2 (over the path 1) its value plus 10; after a snapshot the root is set. -/
def lazySample : List (LazyOp ℕ) :=
  [.newRoot (some 1), .newPath (fun l => l.sum) [0], .newNode (fun l => l.sum + 10) [1, 1], .get 2]

/-- A history with a node made after the snapshot. -/
def lazySampleLater : List (LazyOp ℕ) :=
  [.newRoot (some 1), .dump, .newNode (fun l => l.sum + 10) [0], .set 0 2, .get 1, .load 0]

/-- C41 does not extend to objects made after the snapshot: the node still has the value computed from the
root before it was restored (12), not the one it should have (11). -/
theorem C41_later_node_stale :
    lazyRead lazySampleLater 1 = .ok 12 ∧ (lazyHist lazySampleLater).Value 1 11 ∧
      (lazyTrack lazySampleLater).good 1 = false := by
  refine ⟨by decide +kernel, ?_, by decide +kernel⟩
  refine LazyValue.node (items := (lazyHist lazySampleLater).items) 1 (fun l => l.sum + 10) [0] [1] rfl rfl ?_
  intro k a v hk hv
  cases k with
  | zero =>
    obtain rfl : 0 = a := by simpa using hk
    obtain rfl : 1 = v := by simpa using hv
    exact .root 0 0 1 rfl rfl
  | succ k => simp at hk

-- reading, setting, unsetting
example : lazyRead lazySample 2 = .ok 12 := by decide +kernel
example : lazyRead (lazySample ++ [.set 0 5]) 2 = .ok 20 := by decide +kernel
example : lazyRead (lazySample ++ [.set 0 5, .unset 0]) 2 = .ub := by decide +kernel
example : ∀ op ∈ lazySample ++ [.set 0 5], op.isLoad = false := by decide +kernel
example : (lazyHist (lazySample ++ [.set 0 5])).roots 0 = some 5 := by decide +kernel
-- a snapshot taken and loaded
example : lazyRead (lazySample ++ [.dump, .set 0 5, .get 2, .load 0]) 2 = .ok 12 := by decide +kernel
example : (lazyTrack lazySample).good 2 = true := by decide +kernel
example : ((lazyRun (lazySample ++ [.dump, .set 0 5, .get 2, .load 0]) lazyStart).toOption.map
    fun s => (s.alive 2, s.snaps.length)) = some (true, 1) := by decide +kernel
-- a destroyed node
example : ((lazyRun (lazySample ++ [.destroy 2, .set 0 3, .dump]) lazyStart).toOption.map
    fun s => (s.alive 2, s.snaps.map fun l => l.map Prod.fst)) = some (false, [[0]]) := by decide +kernel
example : (lazyRun (lazySample ++ [.destroy 0]) lazyStart).isError = true := by decide +kernel

end TAT
