import Verif.Lazy.Model

/-!
# What a lazy object is worth

The value of an object is defined from the values of the roots alone, without caches.
-/

namespace TAT

variable {V : Type}

/-- The value of an object: that of its cell for a root, otherwise its function applied to the values of
its arguments. -/
inductive LazyValue (items : List (LazyItem V)) (cells : ℕ → Option (ℕ × V)) : ℕ → V → Prop where
  | root (i id : ℕ) (v : V) (hi : items[i]? = some .root) (hc : cells i = some (id, v)) :
      LazyValue items cells i v
  | node (i : ℕ) (f : List V → V) (args : List ℕ) (vs : List V) (hi : items[i]? = some (.node f args))
      (hl : vs.length = args.length)
      (ha : ∀ (k a : ℕ) (v : V), args[k]? = some a → vs[k]? = some v → LazyValue items cells a v) :
      LazyValue items cells i (f vs)
  | path (i : ℕ) (f : List V → V) (args : List ℕ) (vs : List V) (hi : items[i]? = some (.path f args))
      (hl : vs.length = args.length)
      (ha : ∀ (k a : ℕ) (v : V), args[k]? = some a → vs[k]? = some v → LazyValue items cells a v) :
      LazyValue items cells i (f vs)

/-- The value of an object in a state. -/
def LazyState.Value (s : LazyState V) (i : ℕ) (v : V) : Prop := LazyValue s.items s.cells i v

/-- Which objects a history keeps up to date: all, until a snapshot is loaded; then those that existed
when it was taken (and were up to date).  An object made later is up to date if its arguments are. -/
structure LazyTrack where
  count : ℕ
  good : ℕ → Bool
  saved : List (ℕ → Bool)

/-- The start of a history. -/
def lazyTrackStart : LazyTrack := ⟨0, fun _ => false, []⟩

/-- One operation. -/
def LazyTrack.step (t : LazyTrack) : LazyOp V → LazyTrack
  | .newRoot _ => { t with count := t.count + 1, good := Function.update t.good t.count true }
  | .newNode _ args =>
    { t with count := t.count + 1, good := Function.update t.good t.count (args.all t.good) }
  | .newPath _ args =>
    { t with count := t.count + 1, good := Function.update t.good t.count (args.all t.good) }
  | .dump => { t with saved := t.saved ++ [t.good] }
  | .load k => { t with good := (t.saved[k]?).getD fun _ => false }
  | _ => t

/-- A history. -/
def lazyTrack (ops : List (LazyOp V)) : LazyTrack := ops.foldl LazyTrack.step lazyTrackStart

/-- The operation does not load a snapshot. -/
def LazyOp.isLoad : LazyOp V → Bool
  | .load _ => true
  | _ => false

/-- What a history says about the roots: the objects made, the value last given to every root (none when
it was unset), and what this was at every snapshot, with the number of objects then. -/
structure LazyHist (V : Type) where
  items : List (LazyItem V)
  roots : ℕ → Option V
  saved : List (ℕ × (ℕ → Option V))

/-- The start of a history. -/
def lazyHistStart : LazyHist V := ⟨[], fun _ => none, []⟩

/-- One operation.  Loading a snapshot gives the roots that existed the values they had. -/
def LazyHist.step (h : LazyHist V) : LazyOp V → LazyHist V
  | .newRoot v =>
    { h with items := h.items ++ [.root], roots := Function.update h.roots h.items.length v }
  | .newNode f args => { h with items := h.items ++ [.node f args] }
  | .newPath f args => { h with items := h.items ++ [.path f args] }
  | .set i v => { h with roots := Function.update h.roots i (some v) }
  | .unset i => { h with roots := Function.update h.roots i none }
  | .dump => { h with saved := h.saved ++ [(h.items.length, h.roots)] }
  | .load k =>
    { h with roots := fun i => match h.saved[k]? with
        | some p => if i < p.1 then p.2 i else h.roots i
        | none => h.roots i }
  | _ => h

/-- A history. -/
def lazyHist (ops : List (LazyOp V)) : LazyHist V := ops.foldl LazyHist.step lazyHistStart

/-- The value an object should have after a history. -/
def LazyHist.Value (h : LazyHist V) (i : ℕ) (v : V) : Prop :=
  LazyValue h.items (fun j => (h.roots j).map fun w => (0, w)) i v

end TAT
