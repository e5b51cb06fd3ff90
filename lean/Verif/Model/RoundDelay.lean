import Verif.Model.Round
import Verif.Model.Tf

/-!
# Applying a delay with rounding

`cn` and `sn` are the cosine and sine that `np.exp` of an imaginary number uses.
-/

namespace SST.Round
open SST

variable (A : Arith)

/-- `2 * np.pi * 1j * tf.index * -delay`, signalproc.py:878: the imaginary part; products with the zero real parts are exact. -/
noncomputable def phaseF (f delay : ℝ) : ℝ := A.fl (A.fl (A.fl (2 * A.fl Real.pi) * f) * (-delay))

/-- Product of complex numbers. -/
noncomputable def cmulF (z w : ℂ) : ℂ :=
  ⟨A.fl (A.fl (z.re * w.re) - A.fl (z.im * w.im)), A.fl (A.fl (z.re * w.im) + A.fl (z.im * w.re))⟩

/-- `apply_delay`, signalproc.py:852-880. -/
noncomputable def applyDelayF (cn sn : ℝ → ℝ) (tf : List (ℝ × ℂ)) (delay : ℝ) : List ℂ :=
  tf.map fun p => cmulF A p.2 ⟨cn (phaseF A p.1 delay), sn (phaseF A p.1 delay)⟩

end SST.Round
