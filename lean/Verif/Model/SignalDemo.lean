import Verif.Model.Stats

/-!
# Model of `demos/signalproc_demo.py`: the aggregate of a plant and the table of variability metrics

Exact arithmetic; NaN is `none`.  The filters and transfer functions of the demonstration are those of
`Model/Filters.lean` and `Model/Tf.lean`; the clear-sky model and the wavelet model of pvlib and the plots are not
modelled.
-/

namespace SST.SignalDemo
open SST SST.Stats

/-- `ts_sub.sum(axis=1) / len(plant_pts)`, signalproc_demo.py:55, for `n` rows: `DataFrame.sum` leaves NaN out. -/
noncomputable def plantAgg (n : ℕ) (cols : List (List (Option ℝ))) : List (Option ℝ) :=
  (List.range n).map fun i => some ((cols.map fun c => ((c[i]?).getD none).getD 0).sum / cols.length)

/-- `variability_score(series, tau=tau, moving_avg=True, pct=True)` with a float `tau`, stats.py:190-201, for one
column; `odd` is what `diff` makes of a number of periods that is not 1 (a choice of the pandas version, left open). -/
noncomputable def scoreFloat (odd : ℝ → List (Option ℝ) → Except PyErr (Option ℝ)) (t : List ℝ) (s : List (Option ℝ)) (tau : ℝ) : Except PyErr (Option ℝ) :=
  if 1 < tau then
    match medianStep t with
    | none => .error .valueError
    | some dt =>
      if pyInt (tau * dt) = 0 then .error .other
      else .ok ((scoreRaw (resampleMean (pyInt (tau * dt)) t s) 1).map fun (v : ℝ) => 100 / 1000 * v)
  else if tau = 1 then .ok ((scoreRaw s 1).map fun (v : ℝ) => 100 / 1000 * v)
  else odd tau s

/-- The score over `secs` seconds as the demonstration asks for it, signalproc_demo.py:96-99, 117-134: `dt` is the first
step of the index (`IndexError` for fewer than two stamps), `tau = secs / dt`. -/
noncomputable def scoreOver (odd : ℝ → List (Option ℝ) → Except PyErr (Option ℝ)) (secs : ℝ) (t : List ℝ) (s : List (Option ℝ)) : Except PyErr (Option ℝ) :=
  match t[0]?, t[1]? with
  | some a, some b => scoreFloat odd t s (secs / (b - a))
  | _, _ => .error .indexError

end SST.SignalDemo
