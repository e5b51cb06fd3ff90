import Verif.Model.Round
import Verif.Model.Cloud

/-!
# Weights of the wavelet modes with rounding
-/

namespace SST.Round
open SST SST.Stats

variable (A : Arith)

/-- `_calc_wavelet_weights`, cloudfield.py:103-119, as `waveletWeights`: squares, `nanmean`, sum and quotients rounded. -/
noncomputable def waveletWeightsF (waves : List (List (Option ℝ))) : Option (List ℝ) :=
  match waves.mapM fun row => meanOF A ((row.map (Option.map fun (v : ℝ) => A.fl (v ^ 2))).filterMap id) with
  | none => none
  | some s => if A.sum s = 0 then none else some (s.map fun (x : ℝ) => A.fl (x / A.sum s))

end SST.Round
