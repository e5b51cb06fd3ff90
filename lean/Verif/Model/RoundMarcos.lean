import Verif.Model.Round
import Verif.Model.Filters

/-!
# The Marcos filter with rounding

`sg` rounds to single precision.
-/

namespace SST.Round
open SST

variable (A : Arith)

/-- `1j * freq / fc`, signalproc.py:1129-1130: the imaginary part.  `numpy` divides complex numbers with the reciprocal of the (real) divisor. -/
noncomputable def ratioF (s f : ℝ) : ℝ := A.fl (f * A.fl (1 / A.fl (A.fl 0.02 / A.fl (Real.sqrt s))))

/-- `k / (1j q + 1)`, signalproc.py:1130, with the complex division of `numpy` (Smith's algorithm); products and sums with 0 and products with 1 are exact. -/
noncomputable def recipF (q : ℝ) : ℂ :=
  if |q| ≤ 1 then
    let scl := A.fl (1 / A.fl (1 + A.fl (q * q)))
    ⟨scl, A.fl (-q * scl)⟩
  else
    let rat := A.fl (1 / q)
    let scl := A.fl (1 / A.fl (q + rat))
    ⟨A.fl (rat * scl), -scl⟩

/-- `get_marcosfilter`, signalproc.py:1107-1131, with frequencies given; the result is stored as `complex64`. -/
noncomputable def marcosFilterF (sg : ℝ → ℝ) (s : ℝ) (freq : List ℝ) : List (ℝ × ℂ) :=
  freq.map fun f => (f, ⟨sg (recipF A (ratioF A s f)).re, sg (recipF A (ratioF A s f)).im⟩)

end SST.Round
