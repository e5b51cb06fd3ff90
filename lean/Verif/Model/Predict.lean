import Verif.Model.Field
import Verif.Model.Tf
import Verif.Model.CmvXcorr

/-!
# `compute_predicted_position` from the time series

`Model/Field.lean` starts from cloud vectors and delays; here both are computed from the data as in the code.
-/

namespace SST.Field
open SST SST.Spatial

/-- One of the data frames: sampling interval in seconds and the named columns (equally long, without NaN). -/
structure DataSet where
  dt : ℝ
  cols : List (String × List ℝ)

/-- External functions with the delays of backend 'xcorr' filled in (`Model/CmvXcorr.lean`). -/
noncomputable def cmvExt (x : Cmv.Ext) (nanD : List (Option ℝ) → List (Option ℝ) → Option ℝ) (dt : ℝ) : Cmv.Ext :=
  { x with delays := fun b => if b = "xcorr" then Cmv.xcorrDelays nanD dt else x.delays b }

/-- `cmv.compute_cmv(df, pos_utm, method='jamaly')`, field.py:90-91. -/
noncomputable def cmvOf (x : Cmv.Ext) (nanD : List (Option ℝ) → List (Option ℝ) → Option ℝ) (pts : List (String × Vec)) (d : DataSet) :
    Except PyErr (Cmv.Out String) :=
  (Cmv.computeCmv (cmvExt x nanD d.dt) (d.cols.map fun c => (c.1, c.2.map some)) pts .none "jamaly" "xcorr" none).1

/-- The cloud vector of one data frame, field.py:87-92.  A NaN speed or angle would make the vector NaN; it is replaced by the zero
vector, which gives NaN positions as well. -/
noncomputable def cloudVec (x : Cmv.Ext) (nanD : List (Option ℝ) → List (Option ℝ) → Option ℝ) (pts : List (String × Vec)) (d : DataSet) :
    Except PyErr Vec :=
  (cmvOf x nanD pts d).map fun out => pol2rect (out.speed.getD 0) (out.angle.getD 0)

/-- One pass of the loop, field.py:94-123: the table of one data frame, with its cloud vector.  `ham L` is the Hamming window. -/
noncomputable def caseData (ham : ℕ → List ℝ) (pts : List (String × Vec)) (ref : String) (navgs : ℕ) (cohLim freqLim : Option ℝ)
    (method : String) (dv : DataSet × Vec) : Except PyErr (Vec × List (String × PosRow)) :=
  match Tf.fieldComputeDelays ham dv.1.dt dv.1.cols ref navgs cohLim freqLim method with
  | .error e => .error e
  | .ok r =>
    match dictGet? pts ref with
    | none => .error .keyError
    | some p => (posData pts p ⟨dv.2, r.1, r.2.map Tf.finVal⟩).map fun d => (dv.2, d)

/-- The part after the loop, field.py:125-171.  Fewer than two tables: `combined_data[1]` (or already `[0]`) raises `IndexError`, an
unknown mode `ValueError`; further tables are ignored. -/
noncomputable def combineCases (sort : SortValues String) (pts : List (String × Vec)) (colsNE : Bool) (ref : String) (mode : String) (ndownsel : ℤ)
    (data : List (Vec × List (String × PosRow))) : Except PyErr ((XR × XR) × List (String × PosRow) × List (String × PosRow)) :=
  match data, dictGet? pts ref with
  | (v1, d1) :: (v2, d2) :: _, some r =>
    (downselect sort mode ndownsel pts r d1 d2).map fun ix =>
      let s1 := locRows d1 ix.1
      let s2 := locRows d2 ix.2
      (positionFrom (meanError s1) (meanError s2) v1 v2 (if colsNE then (r.2, r.1) else r), s1, s2)
  | _ :: _ :: _, none => .error .keyError
  | _, o =>
    if mode ∉ ["coherence", "preavg", "global_coherence", "distance", "all"] then .error .valueError
    else if mode = "distance" ∧ o = none then .error .keyError
    else .error .indexError

/-- The table as `compute_cmv` reads it: its first two columns in their order (cmv.py reads positions by column number), so with the
columns in the order N, E the coordinates are exchanged. -/
def cmvTable (colsNE : Bool) (pts : List (String × Vec)) : List (String × Vec) :=
  if colsNE then pts.map fun p => (p.1, (p.2.2, p.2.1)) else pts

/-- `compute_predicted_position`, field.py:13-171. -/
noncomputable def predictData (x : Cmv.Ext) (nanD : List (Option ℝ) → List (Option ℝ) → Option ℝ) (sort : SortValues String) (ham : ℕ → List ℝ)
    (dfs : List DataSet) (pts : List (String × Vec)) (colsNE : Bool) (ref : String) (cldVecs : Option (List Vec)) (mode : String)
    (ndownsel : ℤ) (navgs : ℕ) (cohLim freqLim : Option ℝ) (method : String) :
    Except PyErr ((XR × XR) × List (String × PosRow) × List (String × PosRow)) := do
  let vecs ← match cldVecs with
    | some v => .ok v
    | none => dfs.mapM (cloudVec x nanD (cmvTable colsNE pts))
  let data ← (dfs.zip vecs).mapM (caseData ham pts ref navgs cohLim freqLim method)
  combineCases sort pts colsNE ref mode ndownsel data

end SST.Field
