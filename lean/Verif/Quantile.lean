import Verif.Num
import Mathlib.Data.List.Sort
import Mathlib.Order.Interval.Set.Basic

/-! # Sorting, percentiles and NaN-ignoring reductions of numpy (no rounding)

Signals are lists of `Option ℝ`, `none` = NaN.  Infinite samples are not modelled. -/

namespace SST

/-- `np.sort` of NaN-free data. -/
noncomputable def sortR (l : List ℝ) : List ℝ := l.mergeSort fun a b => decide (a ≤ b)

/-- Linear interpolation between the entries of a list at a real position `h ≥ 0`, the last entry
being repeated. -/
noncomputable def lerpAt (s : List ℝ) (h : ℝ) : ℝ :=
  let i := ⌊h⌋₊
  let lo := (s[i]?).getD 0
  let hi := (s[min (i + 1) (s.length - 1)]?).getD 0
  lo + (h - i) * (hi - lo)

/-- `np.quantile(l, q)`, default method 'linear': position `(n-1)q` in the sorted data.  NaN for
empty input. -/
noncomputable def quantileLin (l : List ℝ) (q : ℝ) : Option ℝ :=
  if l = [] then none else some (lerpAt (sortR l) ((l.length - 1 : ℝ) * q))

/-- `np.median`: the middle entry, or the mean of the two middle entries. -/
noncomputable def median (l : List ℝ) : Option ℝ :=
  if l = [] then none
  else
    let s := sortR l
    let n := l.length
    if n % 2 = 1 then some ((s[n / 2]?).getD 0)
    else some (((s[n / 2 - 1]?).getD 0 + (s[n / 2]?).getD 0) / 2)

/-- Non-NaN entries. -/
def valid (s : List (Option ℝ)) : List ℝ := s.filterMap id

/-- `np.nanmean`. -/
noncomputable def nanmean (s : List (Option ℝ)) : Option ℝ := meanO (valid s)

/-- `np.nanmax`. -/
noncomputable def nanmax (s : List (Option ℝ)) : Option ℝ := (valid s).max?

/-- Population variance of a list. -/
noncomputable def variance (l : List ℝ) : ℝ := mean (l.map fun x => (x - mean l) ^ 2)

/-- `np.nanvar`. -/
noncomputable def nanvar (s : List (Option ℝ)) : Option ℝ :=
  if valid s = [] then none else some (variance (valid s))

/-- `np.nanstd`. -/
noncomputable def nanstd (s : List (Option ℝ)) : Option ℝ := (nanvar s).map Real.sqrt

/-- `np.nanmedian`. -/
noncomputable def nanmedian (s : List (Option ℝ)) : Option ℝ := median (valid s)

/-- `np.nanpercentile(s, 100 q)`. -/
noncomputable def nanquantile (s : List (Option ℝ)) (q : ℝ) : Option ℝ := quantileLin (valid s) q

end SST
