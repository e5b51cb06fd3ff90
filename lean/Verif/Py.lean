import Verif.Num
import Mathlib.Data.List.Sort
import Mathlib.Data.List.Perm.Basic
import Mathlib.Data.List.Nodup

/-! # Python containers used by the model: slices, dictionaries, labelled tables -/

namespace SST

/-- Resolve one bound of a Python slice against a sequence of length `n`: negative bounds count
from the end, then clamp to `0..n`. -/
def pyBound (n : ℕ) (i : ℤ) : ℕ :=
  if i < 0 then (i + n).toNat else min i.toNat n

/-- `l[start:stop]` with step 1. -/
def pySlice {α : Type*} (l : List α) (start stop : ℤ) : List α :=
  (l.take (pyBound l.length stop)).drop (pyBound l.length start)

/-- Assignment `d[k] = v` on an insertion-ordered dictionary: an existing key keeps its place. -/
def dictSet {κ ν : Type*} [DecidableEq κ] (d : List (κ × ν)) (k : κ) (v : ν) : List (κ × ν) :=
  if k ∈ d.map Prod.fst then d.map fun p => if p.1 = k then (k, v) else p else d ++ [(k, v)]

/-- `dict(pairs)`: later pairs overwrite earlier ones. -/
def dictOf {κ ν : Type*} [DecidableEq κ] (l : List (κ × ν)) : List (κ × ν) :=
  l.foldl (fun d p => dictSet d p.1 p.2) []

/-- `d[k]`; `none` is `KeyError`. -/
def dictGet? {κ ν : Type*} [DecidableEq κ] (d : List (κ × ν)) (k : κ) : Option ν :=
  (d.find? fun p => p.1 = k).map Prod.snd

/-- A DataFrame: column labels and labelled rows.  A row is a function of the column label; only
the columns in `cols` exist. -/
structure Frame (ι κ α : Type*) where
  cols : List κ
  rows : List (ι × (κ → α))

namespace Frame
variable {ι κ α : Type} [DecidableEq ι] [DecidableEq κ]

/-- Row labels. -/
def index (f : Frame ι κ α) : List ι := f.rows.map Prod.fst

/-- The row with label `l` (`.loc[l]`), for unique labels. -/
def row? (f : Frame ι κ α) (l : ι) : Option (κ → α) := dictGet? f.rows l

/-- `f[c][l]`: `KeyError` if the column or the row label does not exist. -/
def get (f : Frame ι κ α) (l : ι) (c : κ) : Except PyErr α :=
  if c ∈ f.cols then
    match f.row? l with
    | some r => .ok (r c)
    | none => .error .keyError
  else .error .keyError

/-- `f.loc[l, c] = v`: sets the cell; an unknown row label is appended with NaN in the other
columns (pandas "setting with enlargement"); simplification: an unknown column is not added (it
cannot occur here because the column is read first). -/
def setCell (nan : α) (f : Frame ι κ α) (l : ι) (c : κ) (v : α) : Frame ι κ α :=
  if l ∈ f.index then
    { f with rows := f.rows.map fun r => if r.1 = l then (r.1, Function.update r.2 c v) else r }
  else { f with rows := f.rows ++ [(l, Function.update (fun _ => nan) c v)] }

end Frame
end SST
