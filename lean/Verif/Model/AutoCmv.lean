import Verif.Model.CmvData
import Verif.Model.Stats

/-!
# Model of `demos/automate_cmv_demo.py`: cloud motion vectors of the most variable hours

Stamps are seconds.  The quantities that are only printed (`df_p95`, `stderr_corr`, `error_index`) are left out, as are the plots.
-/

namespace SST.AutoCmv
open SST SST.Cmv SST.Spatial

variable {ι : Type}

/-- Median over the sensors of the variability score of an hour (columns of the measured irradiance), automate_cmv_demo.py:44-45 and 52. -/
noncomputable def hourScore (cols : List (List (Option ℝ))) : Option ℝ := nanmedian (cols.map fun c => Stats.scoreRaw c 1)

/-- The hours processed, automate_cmv_demo.py:51-53; `sortDesc` is `sort_values(ascending=False)`. -/
noncomputable def variableHours (sortDesc : Field.SortValues ℝ) (hours : List (ℝ × List (List (Option ℝ)))) : List ℝ :=
  ((sortDesc (hours.map fun h => (h.1, hourScore h.2))).take 20).map Prod.fst

/-- `pd.date_range(date, date + 1h, freq='10s')`, automate_cmv_demo.py:69: both ends included. -/
noncomputable def hourStamps (date : ℝ) : List ℝ := (List.range 361).map fun k : ℕ => date + 10 * k

/-- `kt.loc[hour]`, automate_cmv_demo.py:70, for a table with the (distinct) stamps `times`: `KeyError` if one is missing. -/
noncomputable def locRows (times : List ℝ) (kt : List (ι × List (Option ℝ))) (stamps : List ℝ) : Except PyErr (List (ι × List (Option ℝ))) :=
  open Classical in
  if ∀ s ∈ stamps, s ∈ times then .ok (kt.map fun c => (c.1, stamps.map fun s => (c.2[times.idxOf s]?).join)) else .error .keyError

/-- One row of the table of cloud motion vectors. -/
structure Row where
  date : ℝ
  spd : Option ℝ
  dir : Option ℝ
  ngood : ℕ
  rCorr : ℝ
  flag : Flag

/-- automate_cmv_demo.py:79-81: without `method_data` (`None`) the subscript is a `TypeError`. -/
def rowOf (date : ℝ) (res : Option ℝ × Option ℝ × WindspeedData ι) : Except PyErr Row :=
  match res.2.2.methodData with
  | none => .error .typeError
  | some md => .ok ⟨date, res.1, res.2.1, md.ngood, md.rCorr, res.2.2.flag.getD .good⟩

/-- One pass of the loop over the hours, automate_cmv_demo.py:67-81. -/
noncomputable def runHour [DecidableEq ι] (x : Ext) (times : List ℝ) (kt : List (ι × List (Option ℝ))) (pos : List (ι × Vec)) (date : ℝ) : Except PyErr Row :=
  match locRows times kt (hourStamps date) with
  | .error e => .error e
  | .ok hour =>
    match computeCmvFull x hour pos .none "jamaly" "xcorr" (some [("minvelocity", 1)]) with
    | .error e => .error e
    | .ok res => rowOf date res

/-- The filter on the quality, automate_cmv_demo.py:95-108.  `row.index(row.Index)` is the method `index` of the tuple `row`: the position
of the stamp in its own row, which is 0; so the flag looked up is that of the first row. -/
noncomputable def dropBad (rows : List Row) : List Row :=
  let flags := rows.map Row.flag
  let bad := rows.filter fun r => decide (r.ngood < 200) || (decide (r.rCorr < 0.85) || decide (flags[0]? ≠ some .good))
  rows.filter fun r => decide (r.date ∉ bad.map Row.date)

/-- `spatial.pol2rect` of a row, automate_cmv_demo.py:113; NaN makes the assignment fail with a `ValueError`. -/
noncomputable def vecOf (r : Row) : Except PyErr Vec :=
  match r.spd, r.dir with
  | some s, some d => .ok (pol2rect s d)
  | _, _ => .error .valueError

/-- automate_cmv_demo.py:113-115: the rows of the diverse vectors. -/
noncomputable def choose (lsa : Field.LSA) (shgo : (ℝ → ℝ) → ℝ → ℝ → ℝ) (rows : List Row) : Except PyErr (List Row) :=
  match rows.mapM vecOf with
  | .error e => .error e
  | .ok vs => (optimumSubset lsa shgo vs 5).map fun ix => ix.filterMap fun i => rows[i]?

/-- The table of cloud motion vectors, automate_cmv_demo.py:44-81. -/
noncomputable def cmvTable [DecidableEq ι] (x : Ext) (sortDesc : Field.SortValues ℝ) (hours : List (ℝ × List (List (Option ℝ)))) (times : List ℝ)
    (kt : List (ι × List (Option ℝ))) (pos : List (ι × Vec)) : Except PyErr (List Row) := (variableHours sortDesc hours).mapM (runHour x times kt pos)

/-- The whole demonstration, automate_cmv_demo.py:44-115. -/
noncomputable def automate [DecidableEq ι] (x : Ext) (sortDesc : Field.SortValues ℝ) (lsa : Field.LSA) (shgo : (ℝ → ℝ) → ℝ → ℝ → ℝ) (hours : List (ℝ × List (List (Option ℝ))))
    (times : List ℝ) (kt : List (ι × List (Option ℝ))) (pos : List (ι × Vec)) : Except PyErr (List Row) :=
  match cmvTable x sortDesc hours times kt pos with
  | .error e => .error e
  | .ok rows => choose lsa shgo (dropBad rows)

end SST.AutoCmv
