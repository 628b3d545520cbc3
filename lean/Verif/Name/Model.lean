import Verif.Basic.OMap
import Verif.Basic.Outcome

/-!
# Model of the interning of edge names: `include/TAT/name.hpp` 46-104, `include/TAT/io.hpp` 663-683

Strings are an arbitrary linearly ordered type `S` with a distinguished empty string.
`FastNameId = int` is `ℕ` (fewer than 2^31 names).  The constructor `FastName(int)` and the
default constructor do not touch the dataset.
-/

namespace TAT

variable {S : Type}

/-- name.hpp 46-67 `fast_name_dataset_t`. -/
structure Dataset (S : Type) where
  namesTotalIndex : ℕ
  nameToId : List (S × ℕ)
  idToName : List S
deriving DecidableEq, Repr

/-- name.hpp 56, 63, 67: the initial dataset knows the empty string as number 0. -/
def Dataset.init (empty : S) : Dataset S := ⟨1, [(empty, 0)], [empty]⟩

/-- name.hpp 91-98 `FastName(const std::string&)`: the new dataset and the id. -/
def mkName [LinearOrder S] (d : Dataset S) (name : S) : Dataset S × ℕ :=
  match OMap.find? d.nameToId name with
  | none =>
    (⟨d.namesTotalIndex + 1, OMap.set d.nameToId name d.namesTotalIndex, d.idToName ++ [name]⟩,
      d.namesTotalIndex)
  | some id => (d, id)

/-- name.hpp 99-101 `operator const std::string&`: an id outside the table is undefined. -/
def nameString (d : Dataset S) (id : ℕ) : Outcome S :=
  match d.idToName[id]? with
  | none => .ub
  | some s => .ok s

/-- io.hpp 663-665, 679-683: what is saved is the list of strings. -/
def dumpDataset (d : Dataset S) : List S := d.idToName

/-- io.hpp 669-671: `name_to_id[id_to_name[i]] = i`. -/
def loadStep [LinearOrder S] (l : List S) (m : List (S × ℕ)) (i : ℕ) : List (S × ℕ) :=
  match l[i]? with
  | none => m
  | some s => OMap.set m s i

/-- io.hpp 666-673, 675-678: loading replaces the whole dataset (the old one is not used). -/
def loadDataset [LinearOrder S] (_d : Dataset S) (saved : List S) : Dataset S :=
  ⟨saved.length, (List.range saved.length).foldl (loadStep saved) [], saved⟩

/-- One event of a history: creating a name from a string, or loading a saved dataset. -/
inductive NameEvent (S : Type) where
  | create (s : S)
  | load (saved : List S)
deriving DecidableEq, Repr

/-- The dataset together with all names handed out so far (with the string asked for). -/
structure NameState (S : Type) where
  dataset : Dataset S
  issued : List (ℕ × S)
deriving DecidableEq, Repr

/-- Effect of one event. -/
def nameStep [LinearOrder S] (st : NameState S) : NameEvent S → NameState S
  | .create s => ⟨(mkName st.dataset s).1, ((mkName st.dataset s).2, s) :: st.issued⟩
  | .load saved => ⟨loadDataset st.dataset saved, st.issued⟩

/-- The state at program start; the default-constructed name (id 0) denotes the empty string. -/
def NameState.init (empty : S) : NameState S := ⟨Dataset.init empty, [(0, empty)]⟩

end TAT
