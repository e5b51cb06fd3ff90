import Verif.Model.RoundQuantile
import Verif.Model.Cloud

/-!
# The alternate scaling of a cloud field with rounding
-/

namespace SST.Round
open SST SST.Stats SST.Cloud

variable (A : Arith) {ι : Type} [Fintype ι]

/-- `clouds_fr` of `_scale_field_basic`, cloudfield.py:414-423, as `cloudsFr`. -/
noncomputable def cloudsFrF (f : ι → ℝ) (lo hi : ℝ) (flip : Bool) (i : ι) : ℝ :=
  let a := A.fl (A.fl (f i - lo) / A.fl (hi - lo))
  let b := if a > 1 then A.fl (2 - a) else a
  let c := if b < 0 then -b else b
  if flip then A.fl (1 - c) else c

/-- Value of a clear cell, cloudfield.py:435-439. -/
noncomputable def clearValF (cs : Option ℝ) (x : ℝ) : ℝ :=
  match cs with
  | none => 1
  | some c => A.fl (A.fl (x * A.fl (1 - c)) + c)

/-- `clouds5` before the cloudy cells are filled in, cloudfield.py:425-439. -/
noncomputable def basicBaseF (fr : ι → ℝ) (clear edge : ι → Bool) (ktmax : ℝ) (cs : Option ℝ) (i : ι) : ℝ :=
  if clear i then clearValF A cs (fr i) else if edge i then A.fl (A.fl (fr i * A.fl (ktmax - 1)) + 1) else 0

open Classical in
/-- `_scale_field_basic`, cloudfield.py:374-476, as `scaleBasic`, every operation rounded; the second component tells whether the
warning was printed. -/
noncomputable def scaleBasicF (f : ι → ℝ) (clear edge : ι → Bool) (ktmean ktmax kt1 quant : ℝ) (flip : Bool) (cs : Option ℝ) : Except PyErr ((ι → ℝ) × Bool) :=
  match quantileAtF A quant (valsOn f fun i => clear i = false), quantileAtF A (A.fl (1 - quant)) (valsOn f fun i => clear i = false) with
  | some hi, some lo =>
    if hi = lo then .error .other
    else
      let fr := cloudsFrF A f lo hi flip
      let cloud := fun i => clear i = false ∧ edge i = false
      let base := basicBaseF A fr clear edge ktmax cs
      let baseline := A.fl (kt1 * (count cloud : ℕ))
      let tgt := A.fl (A.fl (A.fl ((Fintype.card ι : ℝ) * ktmean) - A.sum (vals base)) - baseline)
      let cur := A.sum (valsOn fr cloud)
      if 0 < tgt ∧ tgt < cur ∧ baseline < cur then
        .ok (fun i => if clear i = false ∧ edge i = false then A.fl (A.fl (A.fl (fr i * tgt) / cur) + kt1) else base i, false)
      else .ok (fun i => if clear i = false ∧ edge i = false then A.fl (A.fl (fr i * A.fl (1 - kt1)) + kt1) else base i, true)
  | _, _ => .error .other

end SST.Round
