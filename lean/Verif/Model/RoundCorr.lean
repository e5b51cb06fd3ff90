import Verif.Model.Round
import Verif.Model.Corr

/-!
# `compute_delays` with rounding

Mode 'loop' for one pair of columns, signalproc.py:633-677 and 708.  What `scipy.signal.correlate` returns is a parameter, since scipy chooses between sums and transforms.
-/

namespace SST.Round
open SST SST.Corr SST.Dft

variable (A : Arith)

/-- `np.mean`. -/
noncomputable def meanF (x : List ℝ) : ℝ := A.fl (A.sum x / x.length)

/-- Mean removal, signalproc.py:646-647. -/
noncomputable def condF (scaling : String) (x : List ℝ) : List ℝ := if scaling = "coeff" then x.map fun (v : ℝ) => A.fl (v - meanF A x) else x

/-- `np.std`. -/
noncomputable def stdF (x : List ℝ) : ℝ := A.fl (Real.sqrt (A.fl (A.sum (x.map fun (v : ℝ) => A.fl (A.fl (v - meanF A x) ^ 2)) / x.length)))

/-- `corr_scale` of the columns without their means, signalproc.py:648-653. -/
noncomputable def scaleF (scaling : String) (x y : List ℝ) : XR :=
  if scaling = "coeff" then
    match XR.div 1 (A.fl (A.fl (x.length * stdF A x) * stdF A y)) with
    | .fin v => .fin (A.fl v)
    | v => v
  else .fin 1

/-- Multiplication with `corr_scale`, which is not negative. -/
noncomputable def timesF (c : ℝ) (s : XR) : XR := match s with
  | .fin v => .fin (A.fl (c * v))
  | .pinf => XR.div c 0
  | v => v

/-- `scipy.signal.correlate` with method 'direct': for each lag the sum of the products of the samples that overlap. -/
noncomputable def directF (x y : List ℝ) : List ℝ :=
  (List.range (x.length + y.length - 1)).map fun (k : ℕ) =>
    A.sum (((List.range x.length).filter fun (l : ℕ) => 0 ≤ (l : ℤ) - k + (y.length - 1) ∧ (l : ℤ) - k + (y.length - 1) < y.length).map fun (l : ℕ) =>
      A.fl (at0 x l * atZ y ((l : ℤ) - k + (y.length - 1))))

/-- One pair of columns in mode 'loop': the delay and `peak_corr`, signalproc.py:663-677 and 708; `correl` is `scipy.signal.correlate`. -/
noncomputable def delayF (correl : List ℝ → List ℝ → List ℝ) (dt : ℝ) (scaling : String) (x y : List ℝ) : ℝ × XR :=
  let c := correl (condF A scaling x) (condF A scaling y)
  let lags := (lagsOf x.length x.length).map fun (k : ℤ) => A.fl ((k : ℝ) * dt)
  let k := argmax c
  let peak := timesF A ((c[k]?).getD 0) (scaleF A scaling (condF A scaling x) (condF A scaling y))
  open Classical in (if peak.lt (.fin (1e-10)) then 0 else -((lags[k]?).getD 0), peak)

end SST.Round
