import Verif.Model.Round

/-!
# The variability score with rounding
-/

namespace SST.Round
open SST SST.Stats

variable (A : Arith)

/-- `(x.abs() * (1. - x.abs().rank(pct=True))).max(axis=0)` with `x = series.diff(tau)`, stats.py:198-199.  Magnitudes, comparisons and ranks (multiples of
one half) are exact; the division of the rank by the number of values, the subtraction from one and the product are rounded. -/
noncomputable def scoreRawF (s : List (Option ℝ)) (tau : ℕ) : Option ℝ :=
  let x := (diffsF A s tau).map (Option.map fun (v : ℝ) => |v|)
  omax (x.map (Option.map fun (r : ℝ) => A.fl (r * A.fl (1 - A.fl (rankPct x r)))))

end SST.Round
