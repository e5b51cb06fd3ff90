import Verif.Model.Field

/-!
# Model of the reassignment procedure of `demos/field_reassignment_demo.py`

The demonstration is the documented way to use `compute_predicted_position`, `assign_positions`, `remap_positions` and
`cascade_remap` together.
-/

namespace SST.Field
open SST

variable {ι : Type}

/-- Label and position of every row of `pos_utm` (columns "E" and "N"). -/
def tablePts (f : Frame ι String ℝ) : List (ι × Vec) := f.rows.map fun r => (r.1, (r.2 "E", r.2 "N"))

/-- A coordinate stored in the table of predictions.  Infinite coordinates do not occur for cloud vectors that are not parallel
and are treated like NaN. -/
def storeCoord : XR → Option ℝ
  | .fin x => some x
  | _ => none

/-- The row stored for one reference, field_reassignment_demo.py:43-45. -/
def storeRow (pos : XR × XR) : PredRow := ⟨storeCoord pos.1, storeCoord pos.2, []⟩

/-- `preds_r0`, field_reassignment_demo.py:42-45: the predicted position of every reference.  `data ref` are the cloud vectors and the
delays and coherences of all sites relative to `ref`; they come from the measurements and do not depend on the table.  The columns of
the table are E and N in this order. -/
noncomputable def predictRefs [DecidableEq ι] (sort : SortValues ι) (mode : String) (ndownsel : ℤ) (data : ι → CloudCase × CloudCase)
    (f : Frame ι String ℝ) (refs : List ι) : Except PyErr (List (ι × PredRow)) :=
  refs.mapM fun ref => (predictedPosition sort (tablePts f) false ref mode ndownsel (data ref).1 (data ref).2).map
    fun r => (ref, storeRow r.1)

/-- One row of `pos_utm.loc[refs]`. -/
def locRef [DecidableEq ι] (f : Frame ι String ℝ) (l : ι) : Except PyErr (ι × (String → ℝ)) :=
  match f.row? l with
  | some r => .ok (l, r)
  | none => .error .keyError

/-- `pos_utm.loc[refs]`, field_reassignment_demo.py:50. -/
def locFrame [DecidableEq ι] (f : Frame ι String ℝ) (refs : List ι) : Except PyErr (Frame ι String ℝ) :=
  (refs.mapM (locRef f)).map fun rows => ⟨f.cols, rows⟩

/-- One round, field_reassignment_demo.py:42-50 (and 66-72): predict all references and assign them to their plan positions. -/
noncomputable def reassignRound [LinearOrder ι] (lsa : LSA) (nan : ℝ) (sort : SortValues ι) (mode : String) (ndownsel : ℤ)
    (data : ι → CloudCase × CloudCase) (refs : List ι) (f : Frame ι String ℝ) : Except PyErr (List (ι × ι)) :=
  predictRefs sort mode ndownsel data f refs >>= fun preds =>
  locFrame f refs >>= fun sub =>
  (assignPositions lsa nan sub preds).map Prod.fst

/-- `k` further rounds after the first, field_reassignment_demo.py:63-77 (and 89-97): remap the ORIGINAL table with the remap found
so far, do a round with it and cascade. -/
noncomputable def reassign [LinearOrder ι] (lsa : LSA) (nan : ℝ) (sort : SortValues ι) (mode : String) (ndownsel : ℤ)
    (data : ι → CloudCase × CloudCase) (refs : List ι) (f : Frame ι String ℝ) : ℕ → Except PyErr (List (ι × ι))
  | 0 => reassignRound lsa nan sort mode ndownsel data refs f
  | k + 1 =>
    reassign lsa nan sort mode ndownsel data refs f k >>= fun r =>
    remapPositions nan f r none >>= fun f' =>
    reassignRound lsa nan sort mode ndownsel data refs f' >>= fun s =>
    cascadeRemap r s

end SST.Field
