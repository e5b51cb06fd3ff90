import Verif.Model.Round
import Verif.Model.Stats

/-!
# `calc_quantile` with rounding
-/

namespace SST.Round
open SST SST.Stats

variable (A : Arith)

/-- The interpolation of `np.percentile` between `a ≤ b` (numpy `_lerp`): from below for `t < 1/2`, from above otherwise. -/
noncomputable def lerpF (a b t : ℝ) : ℝ := open Classical in
  if t < 1 / 2 then A.fl (a + A.fl (A.fl (b - a) * t)) else A.fl (b - A.fl (A.fl (b - a) * A.fl (1 - t)))

/-- Level of `piv.quantile(quantile, axis=1)`, stats.py:377: pandas passes `100 * q` to `np.percentile`, which divides by 100. -/
noncomputable def levelF (q : ℝ) : ℝ := A.fl (A.fl (q * 100) / 100)

/-- `np.quantile` (linear) at the level `lev`: position `(n - 1) * lev`, the order statistic below and the next one (the last
one beyond the end), interpolated at the fraction of the position. -/
noncomputable def quantileAtF (lev : ℝ) (l : List ℝ) : Option ℝ :=
  let v := l.insertionSort (· ≤ ·)
  let pos := A.fl (((v.length : ℝ) - 1) * lev)
  if v = [] then none
  else some (lerpF A (v.getD ⌊pos⌋.toNat 0) (v.getD (min (⌊pos⌋.toNat + 1) (v.length - 1)) 0) (A.fl (pos - ⌊pos⌋)))

/-- One row of `piv.quantile(quantile, axis=1)`, stats.py:377. -/
noncomputable def quantileF (q : ℝ) (l : List ℝ) : Option ℝ := quantileAtF A (levelF A q) l

/-- One window as `windowRows`, stats.py:362-383. -/
noncomputable def windowRowsF (q : ℝ) (n d : ℤ) (ts : List (ℤ × Option ℝ)) : List (ℤ × Option ℝ) :=
  (((windowOf n d ts).map fun p => p.1 % day).dedup).map fun tod =>
    ((d + n) * day + tod, quantileF A q (((windowOf n d ts).filter fun p => p.1 % day = tod).filterMap fun p => p.2))

/-- `calc_quantile`, stats.py:309-404, as `calcQuantile` (stamps are whole numbers). -/
noncomputable def calcQuantileF (isFrame : Bool) (name : ColName) (ts : List (ℤ × Option ℝ)) (n : ℤ) (q : ℝ) :
    Except PyErr (String × List (ℤ × Option ℝ)) :=
  if ts = [] then .error .indexError
  else
    let rows := (startDays n ts).flatMap fun d => windowRowsF A q n d ts
    (quantName isFrame name).map fun nm => (nm, ts.map fun p => (p.1, (rows.lookup p.1).getD none))

end SST.Round
