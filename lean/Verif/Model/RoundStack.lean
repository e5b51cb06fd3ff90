import Verif.Model.Round
import Verif.Model.Cloud

/-!
# Stacking and normalizing random fields with rounding
-/

namespace SST.Round
open SST SST.Stats SST.Cloud

variable (A : Arith) {ι : Type} [Fintype ι]

/-- `field += i_field * weight` for every scale, cloudfield.py:148-155, at one cell: `layers` are the interpolated fields. -/
noncomputable def stackSumF (layers : List (ι → ℝ)) (weights : List ℝ) (i : ι) : ℝ :=
  (layers.zip weights).foldl (fun acc p => A.fl (acc + A.fl (p.1 i * p.2))) 0

open Classical in
/-- The normalization, cloudfield.py:157-162; `ValueError` is numpy's for the minimum of nothing.  For a constant field 0/0 is NaN
and the first assertion fails. -/
noncomputable def normalizeF (f : ι → ℝ) : Except PyErr (ι → ℝ) :=
  match (omax ((vals fun i => -f i).map some)).map fun (v : ℝ) => -v with
  | none => .error .valueError
  | some lo =>
    let g := fun i => A.fl (f i - lo)
    match omax ((vals g).map some) with
    | none => .error .valueError
    | some mx =>
      if mx = 0 then .error .assertionError
      else
        let h := fun i => A.fl (g i / mx)
        if (omax ((vals fun i => -h i).map some)).map (fun (v : ℝ) => -v) = some 0 ∧ omax ((vals h).map some) = some 1 then .ok h
        else .error .assertionError

/-- `_stack_random_field`, cloudfield.py:122-172, as `stackField`, for given interpolated fields of the scales. -/
noncomputable def stackFieldF (layers : List (ι → ℝ)) (weights : List ℝ) (normalize : Bool) : Except PyErr (ι → ℝ) :=
  if weights.length ≠ layers.length then .error .valueError
  else if normalize then normalizeF A (stackSumF A layers weights) else .ok (stackSumF A layers weights)

end SST.Round
