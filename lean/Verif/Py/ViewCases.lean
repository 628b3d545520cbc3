import Verif.Py.ViewProps

/-!
# Concrete histories for C82

Names and cores are numbers.
-/

namespace TAT.PyView

open TAT.Cow

/-- A careful program: two tensors, two views, changes from both sides, a name deleted under a view. -/
def carefulHistory : List (PyEvent ℕ ℕ) :=
  [.lib (.create 1 10), .lib (.copy 0), .take 1, .take 0, .write 0 (· + 5), .lib (.update 0 (· * 3)),
   .lib (.combine 1 0 (· + ·)), .lib (.destroy 1), .write 0 (· + 1), .setitem 0 (· + 2),
   .lib (.deepCopy 0), .release 1, .lib (.rename 0 (· + 1))]

instance (h : ℕ) (ev : PyEvent ℕ ℕ) : Decidable (Disturbs h ev) := by
  cases ev with
  | lib ev => cases ev <;> unfold Disturbs <;> infer_instance
  | take h => unfold Disturbs; infer_instance
  | write v f => unfold Disturbs; infer_instance
  | release v => unfold Disturbs; infer_instance
  | setitem h f => unfold Disturbs; infer_instance

/-- Care, checked on the views that are alive. -/
theorem careful_of_check (e : Expected ℕ ℕ) (evs : List (PyEvent ℕ ℕ))
    (h : (evs.foldl (fun (p : Bool × Expected ℕ ℕ) ev =>
      (p.1 && p.2.views.all (fun o => match o with | none => true | some h => decide (¬ Disturbs h ev)),
        expectStep p.2 ev)) (true, e)).1 = true) : Careful e evs := by
  have mono : ∀ (evs : List (PyEvent ℕ ℕ)) (b : Bool) (e : Expected ℕ ℕ),
      (evs.foldl (fun (p : Bool × Expected ℕ ℕ) ev =>
        (p.1 && p.2.views.all (fun o => match o with | none => true | some h => decide (¬ Disturbs h ev)),
          expectStep p.2 ev)) (b, e)).1 = true → b = true ∧ Careful e evs := by
    intro evs
    induction evs with
    | nil => intro b e h; exact ⟨h, trivial⟩
    | cons ev evs ih =>
      intro b e h
      obtain ⟨h1, h2⟩ := ih _ _ h
      rw [Bool.and_eq_true] at h1
      refine ⟨h1.1, ?_, h2⟩
      intro k hk
      have := List.all_eq_true.1 h1.2 _ hk
      simpa using this
  exact (mono evs true e h).2

/-- The hypothesis of `C82_careful_partial` holds for it … -/
example : Careful Expected.init carefulHistory := careful_of_check _ _ (by decide)

/-- … and this is what it leaves: tensor 0 with 32, tensor 1 with 46 without a name but with a view. -/
example : carefulHistory.foldl expectStep Expected.init =
    (⟨[some (1, 32), some (1, 46), some (1, 32), some (2, 32)], [some 1, none], [1]⟩ : Expected ℕ ℕ) := by
  decide

example : (pyRun PyState.init carefulHistory).toOption.map shown =
    some (carefulHistory.foldl expectStep Expected.init) := by decide

example : (pyRun PyState.init carefulHistory).bind (fun st => readView st 0) = .ok 46 := by decide

/-- A tensor with a view. -/
def withView : PyState ℕ ℕ := ⟨⟨[some (1, 10)], [some (7, 0)]⟩, [some (0, 0)], []⟩

/-- The hypotheses of `C82_shared_write`, `C82_stale` and `C82_dangling` hold for it. -/
theorem withView_reached : Reached withView := ⟨[.lib (.create 7 10), .take 0], by decide⟩

example : viewAt withView 0 = some (0, 0) ∧ handle withView.heap 0 = some (7, 0) ∧
    value (view withView.heap) 0 = some (7, 10) ∧ 0 ∉ withView.dropped := by decide

example : Owns withView.heap 0 0 := ⟨⟨7, by decide⟩, by decide⟩

/-- C82 fails: `v = t.block[…]; u = t.edge_rename(…); v[…] = 99` changes `u`. -/
theorem C82_shared_write_counterexample :
    let evs : List (PyEvent ℕ ℕ) :=
      [.lib (.create 7 10), .take 0, .lib (.rename 0 (· + 1)), .write 0 (fun _ => 99)]
    (pyRun PyState.init evs).toOption.map (fun st => value (view st.heap) 1) = some (some (8, 99)) ∧
    value (evs.foldl expectStep Expected.init).values 1 = some (8, 10) := by
  decide

/-- C82 fails: after `v = t.block[…]; u = t.edge_rename(…); w = t.block[…]; w[…] = 99` the tensor `t` has
changed, and of its two views one shows this and the other does not. -/
theorem C82_two_views_counterexample :
    let evs : List (PyEvent ℕ ℕ) :=
      [.lib (.create 7 10), .take 0, .lib (.rename 0 (· + 1)), .take 0, .write 1 (fun _ => 99)]
    (pyRun PyState.init evs).toOption.map (fun st => value (view st.heap) 0) = some (some (7, 99)) ∧
    (pyRun PyState.init evs).bind (fun st => readView st 1) = .ok 99 ∧
    (pyRun PyState.init evs).bind (fun st => readView st 0) = .ok 10 := by
  decide

/-- C82 fails: after `v = t.block[…]; u = t.edge_rename(…); t.zero(); del u` the view `v` reads freed
memory although the tensor `t` it keeps is alive. -/
theorem C82_dangling_counterexample :
    let evs : List (PyEvent ℕ ℕ) :=
      [.lib (.create 7 10), .take 0, .lib (.rename 0 (· + 1)), .lib (.update 0 (fun _ => 0)),
        .lib (.destroy 1)]
    (pyRun PyState.init evs).toOption.map (fun st => value (view st.heap) 0) = some (some (7, 0)) ∧
    (pyRun PyState.init evs).bind (fun st => readView st 0) = .ub := by
  decide

/-- A write through a view of a shared core, for `C82_write` and `C82_read`. -/
example : (pyRun (⟨⟨[some (2, 10), some (1, 3)], [some (7, 0), some (8, 0), some (9, 1)]⟩,
    [some (0, 0)], []⟩ : PyState ℕ ℕ) [.write 0 (· + 1)]).toOption.map (fun st => view st.heap) =
    some [some (7, 11), some (8, 11), some (9, 3)] := by decide

/-- An assignment to a block of a tensor which shares its core changes this tensor only. -/
example : (pyRun PyState.init ([.lib (.create 7 10), .lib (.copy 0), .setitem 1 (· + 1)] :
    List (PyEvent ℕ ℕ))).toOption.map (fun st => view st.heap) =
    some [some (7, 10), some (7, 11)] := by decide

/-- A view made from a temporary tensor, `t.edge_rename(…).block[…]`: the tensor has no name and the view
still shows it; both go together. -/
example : (pyRun PyState.init ([.lib (.create 7 10), .lib (.rename 0 (· + 1)), .take 1, .lib (.destroy 1),
    .write 0 (· + 1)] : List (PyEvent ℕ ℕ))).bind (fun st => readView st 0) = .ok 11 := by decide

example : (pyRun PyState.init ([.lib (.create 7 10), .lib (.rename 0 (· + 1)), .take 1, .lib (.destroy 1),
    .write 0 (· + 1), .release 0] : List (PyEvent ℕ ℕ))) =
    .ok ⟨⟨[some (1, 10), none], [some (7, 0), none]⟩, [none], []⟩ := by decide

end TAT.PyView
