import Verif.Model.RoundQuantile
import Verif.Model.Cloud

/-!
# The clear mask with rounding
-/

namespace SST.Round
open SST SST.Stats SST.Cloud

variable (A : Arith)

/-- `np.isclose(a, b, rtol=1e-3)`: `abs(a - b) <= 1e-8 + 1e-3 * abs(b)`. -/
def iscloseF (a b : ℝ) : Prop := |A.fl (a - b)| ≤ A.fl (A.fl 1e-8 + A.fl (A.fl 1e-3 * |b|))

open Classical in
/-- `_calc_clear_mask`, cloudfield.py:174-217, as `clearMask`: the quantile, the fraction of clear cells (a sum of ones, which is
exact, over the number of cells) and the final test are rounded. -/
noncomputable def clearMaskF {ι : Type} [Fintype ι] (f : ι → ℝ) (frac : ℝ) : Except PyErr (ι → Bool) :=
  if frac > 1 ∨ frac < 0 then .error .valueError
  else
    match (if frac = 0 then some fun _ => false
      else (quantileAtF A frac (vals f)).map fun (q : ℝ) (i : ι) => if f i > q then false else true : Option (ι → Bool)) with
    | none => .error .other
    | some mask => if iscloseF A frac (A.fl ((count fun i => mask i = true : ℕ) / (Fintype.card ι : ℝ))) then .ok mask else .error .assertionError

end SST.Round
