import Verif.Py

/-! # Independent specifications: remap lists and assignments -/

namespace SST.Spec
open SST
variable {ι κ α : Type} [DecidableEq ι] [DecidableEq κ]

/-- The second element of the LAST pair of `remap` whose first element is `l`. -/
def lastTarget (remap : List (ι × ι)) (l : ι) : Option ι :=
  (remap.reverse.find? fun p => p.1 = l).map Prod.snd

/-- The cell of a table, if row and column exist (unique labels). -/
def cell (f : Frame ι κ α) (l : ι) (c : κ) : Option α :=
  if c ∈ f.cols then (f.rows.find? fun r => r.1 = l).map fun r => r.2 c else none

/-- The rows of a table as lists of cell values. -/
def rowValues (f : Frame ι κ α) : List (List α) := f.rows.map fun r => f.cols.map r.2

/-- `remap` relates the labels `idx` one to one with themselves. -/
def IsBijection (remap : List (ι × ι)) (idx : List ι) : Prop :=
  (remap.map Prod.fst).Perm idx ∧ (remap.map Prod.snd).Perm idx

end SST.Spec
