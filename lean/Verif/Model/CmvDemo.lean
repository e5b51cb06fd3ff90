import Verif.Model.CmvData
import Verif.Model.Stats

/-!
# Model of `demos/cmv_demo.py`

The normalisation of the data, and the delays relative to one reference sensor, which are plotted over the plant.  The calls of `compute_cmv`
are `computeCmvFull`; printing and plotting is not modelled.
-/

namespace SST.Cmv
open SST SST.Stats

variable {ι : Type}

/-! ## Normalisation -/

/-- `np.mean(ts_data.quantile(0.95))`, cmv_demo.py:24: pandas leaves out NaN in both steps. -/
noncomputable def hourlyMax (ts : List (ι × List (Option ℝ))) : Option ℝ :=
  pdMean (ts.map fun c => Stats.quantileLin 0.95 (c.2.filterMap id))

/-- `ts_data / hourlymax`, cmv_demo.py:25.  (Division by zero gives infinities in the code, which are not modelled.) -/
noncomputable def normaliseTs (ts : List (ι × List (Option ℝ))) : List (ι × List (Option ℝ)) :=
  ts.map fun c => (c.1, c.2.map fun v => v.bind fun a => (hourlyMax ts).map fun h => a / h)

/-! ## Delays relative to a reference sensor -/

/-- What the loop appends for one pair, cmv_demo.py:88-93. -/
noncomputable def refLag [DecidableEq ι] (ref : ι) (p : (ι × ι) × Option ℝ) : Option (ι × Option ℝ) :=
  if ref = p.1.1 ∨ ref = p.1.2 then some (if ref = p.1.1 then (p.1.2, p.2) else (p.1.1, p.2.map fun t => -t)) else none

/-- `pos_utm.loc[point, 'lag'] = lag`; a row that does not exist is added. -/
noncomputable def setLag [DecidableEq ι] (col : List (ι × Option ℝ)) (k : ι) (v : Option ℝ) : List (ι × Option ℝ) :=
  if k ∈ col.map Prod.fst then col.map fun r => if r.1 = k then (k, v) else r else col ++ [(k, v)]

/-- The column `lag`, cmv_demo.py:84-98.  With fewer than two GOOD pairs `pair_lag` is `None`, and `zip` raises `TypeError`; a list of labels
one of which does not exist raises `KeyError`; of several values for one label the last stays. -/
noncomputable def lagMap [DecidableEq ι] (ids : List ι) (d : WindspeedData ι) (ref : ι) : Except PyErr (List (ι × Option ℝ)) :=
  match d.allpairs, d.pairLag with
  | some pairs, some lags =>
    let l := (pairs.zip lags).filterMap (refLag ref)
    if ∀ p ∈ l, p.1 ∈ ids then .ok (setLag (l.foldl (fun c p => setLag c p.1 p.2) (ids.map fun i => (i, some 0))) ref (some 0))
    else .error .keyError
  | _, _ => .error .typeError

end SST.Cmv
