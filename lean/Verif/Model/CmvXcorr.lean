import Verif.Model.Cmv
import Verif.Model.Corr

/-!
# The delays `compute_cmv` works with (backend 'xcorr')

`Model/Cmv.lean` takes the delays of a pair from a parameter; here the parameter is filled with the model of
`signalproc.compute_delays`.
-/

namespace SST.Cmv
open SST

/-- A float as a possibly-NaN number.  (In exact arithmetic `compute_delays` divides by zero only for constant columns, where the
numerator is zero too: infinities do not occur.) -/
def finiteOf : XR → Option ℝ
  | .fin v => some v
  | _ => none

/-- Delay, peak and mean correlation of a pair of columns, cmv.py:251-256: `compute_delays(A, B, 'loop', scaling='coeff')`, which
treats every pair of columns on its own.  A column with NaN gives NaN
correlations, and a delay that depends on how scipy computes the sum (parameter `nanDelay`). -/
noncomputable def xcorrDelays (nanDelay : List (Option ℝ) → List (Option ℝ) → Option ℝ) (dt : ℝ) (a b : List (Option ℝ)) :
    Option ℝ × Option ℝ × Option ℝ :=
  if none ∈ a ∨ none ∈ b then (nanDelay a b, none, none)
  else
    match Corr.computeDelays dt [a.filterMap id] [b.filterMap id] "loop" "coeff" with
    | .ok (r :: _) => (some r.delay, finiteOf r.peak, finiteOf r.meanCorr)
    | _ => (none, none, none)

end SST.Cmv
