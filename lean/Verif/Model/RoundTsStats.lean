import Verif.Model.RoundQuantile
import Verif.Model.RoundScore
import Verif.Model.Cloud

/-!
# Statistics of a clear-sky index series with rounding
-/

namespace SST.Round
open SST SST.Stats

variable (A : Arith)

open Classical in
/-- `get_timeseries_stats`, cloudfield.py:478-538, as `tsStats` (without the wavelets): `np.nanquantile` takes the level as given,
the maximum and the number of samples above the threshold are exact. -/
noncomputable def tsStatsF (kt : List (Option ℝ)) (thr : ℝ) : Option ℝ × Option ℝ × Option ℝ × ℝ × Option ℝ :=
  (meanOF A (kt.filterMap id), quantileAtF A (A.fl 0.01) (kt.filterMap id), omax kt,
    A.fl (((kt.filter fun o => ∃ v, o = some v ∧ thr < v).length : ℝ) / kt.length), (scoreRawF A kt 1).map fun (v : ℝ) => A.fl (v * 1e4))

end SST.Round
