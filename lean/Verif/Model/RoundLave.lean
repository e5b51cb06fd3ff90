import Verif.Model.RoundQuantile
import Verif.Model.Cloud

/-!
# Scaling of a cloud field after the original author, with rounding
-/

namespace SST.Round
open SST SST.Stats SST.Cloud

variable (A : Arith) {ι : Type} [Fintype ι]

/-- `clouds3` of `_scale_field_lave`, cloudfield.py:305-309. -/
noncomputable def clouds3F (f : ι → ℝ) (fm kt1 : ℝ) (i : ι) : ℝ := max 0 (min 1 (A.fl (1 - A.fl (A.fl (f i * A.fl (1 - kt1)) / fm))))

/-- `ce`, cloudfield.py:312, as `laveCe`. -/
noncomputable def laveCeF (c3 : ι → ℝ) (lo hi ktmax : ℝ) (i : ι) : Option ℝ :=
  if hi = lo then none else some (A.fl (1 + A.fl (A.fl (A.fl (c3 i - lo) / A.fl (hi - lo)) * A.fl (ktmax - 1))))

open Classical in
/-- `diff_sum`, cloudfield.py:324-329; `none` is NaN.  The sums of the masks are exact, being whole numbers. -/
noncomputable def diffSumF (ce : ι → Option ℝ) (clear edge : ι → Bool) (ktmean : ℝ) : Option ℝ :=
  if ∀ i, edge i = true ∧ clear i = false → (ce i).isSome then
    some (A.fl (A.fl (A.fl ((Fintype.card ι : ℝ) * ktmean) - (count fun i => clear i = true : ℕ)) - A.sum (valsOn (fun i => (ce i).getD 0) fun i => edge i = true ∧ clear i = false)))
  else none

open Classical in
/-- `_scale_field_lave`, cloudfield.py:266-372, as `scaleLave`, every operation rounded. -/
noncomputable def scaleLaveF (f : ι → ℝ) (clear edge : ι → Bool) (ktmean ktmax kt1 maxQuant : ℝ) : Except PyErr (ι → Option ℝ) :=
  match quantileAtF A maxQuant (valsOn f fun i => clear i = false) with
  | none => .error .other
  | some fm =>
    if fm = 0 then .error .other else
    let c3 := clouds3F A f fm kt1
    match omax ((vals c3).map some), (omax ((vals fun i => -c3 i).map some)).map fun (v : ℝ) => -v with
    | some hi, some lo =>
      let ce := laveCeF A c3 lo hi ktmax
      let cloud := fun i => clear i = false ∧ edge i = false
      let tgt (d : ℝ) := A.fl (d / (count cloud : ℕ))
      let cur := A.fl (A.sum (valsOn c3 cloud) / (count cloud : ℕ))
      let c4 (i : ι) : Option ℝ :=
        match diffSumF A ce clear edge ktmean with
        | none => some (c3 i)
        | some d => if 0 < d then (if cur = 0 then none else some (A.fl (A.fl (tgt d / cur) * c3 i))) else some (c3 i)
      .ok fun i => if clear i then some 1 else if edge i then ce i else c4 i
    | _, _ => .error .other

end SST.Round
