import Verif.Model.RoundStack
import Verif.Model.RoundMask
import Verif.Model.RoundEdges
import Verif.Model.RoundLave
import Verif.Model.RoundBasic

/-!
# The generator of cloud fields with rounding
-/

namespace SST.Round
open SST SST.Stats SST.Cloud

variable (A : Arith)

/-- The mask as a function on all of `ℕ × ℕ`, false outside the field. -/
def widenMask {m n : ℕ} (mask : Fin m × Fin n → Bool) (i j : ℕ) : Bool := if h : i < m ∧ j < n then mask (⟨i, h.1⟩, ⟨j, h.2⟩) else false

open Classical in
/-- `cloudfield_timeseries`, cloudfield.py:573-622, as `cloudfield`, for given interpolated fields of the scales (`L1`, `L2` for the
two stacked fields). -/
noncomputable def cloudfieldF {m n : ℕ} (L1 L2 : List (Fin m × Fin n → ℝ)) (weights : List ℝ) (fracClear ktmean ktmax kt1 : ℝ) (scaling : String) (edgesmoothing : ℕ) :
    Except PyErr (Fin m × Fin n → Option ℝ) := do
  let cf ← stackFieldF A L1 weights false
  let cm ← stackFieldF A L2 weights false
  let mask ← clearMaskF A cm fracClear
  if scaling = "original" then
    scaleLaveF A cf mask (fun p => decide (0 < edges (widenMask mask) m n p.1 p.2)) ktmean ktmax kt1 (A.fl 0.99)
  else if scaling = "basic" then
    (scaleBasicF A cf mask (fun p => decide (smoothedBinaryF A (widenMask mask) m n edgesmoothing 0 p.1 p.2)) ktmean ktmax kt1 (A.fl 0.999) false none).map fun r p => some (r.1 p)
  else .error .valueError

end SST.Round
